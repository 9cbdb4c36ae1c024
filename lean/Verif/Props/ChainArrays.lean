import Verif.Model.ChainArrays
import Verif.Lemmas.Message
import Verif.Lemmas.Linalg
import Mathlib.Algebra.BigOperators.Fin

/-!
# C64: unit plate axes of the parents of chains

The array of a parent's moments may have unit length along a plate axis where the node uses the full length: that is the same as an
array that repeats the entry.  `X.at c` is the entry at `c` of the repeated array.
-/

namespace Verif
open Spec

/-! ### Reading arrays -/

theorem coordL_lt {l : List Nat} {p : Nat → Nat} {k : Nat} (h : k < l.length) : coordL l p k = l[k] := dif_pos h

theorem coordL_ge {l : List Nat} {p : Nat → Nat} {k : Nat} (h : ¬ k < l.length) : coordL l p k = p (k - l.length) := dif_neg h

theorem axisLen_dropAxes (X : Arr ℝ) (n k : Nat) : axisLen (dropAxes X n) k = axisLen X.shape (k + n) := by
  unfold dropAxes axisLen
  rw [List.reverse_take, List.getElem?_drop, show X.shape.length - (X.shape.length - n) + k = if n ≤ X.shape.length then k + n
    else X.shape.length + k by split <;> omega]
  split
  · rfl
  · rw [List.getElem?_eq_none (by simp), List.getElem?_eq_none (by simp; omega)]

theorem axisLen_eraseIdx (s : List Nat) (k j : Nat) (hk : k < s.length) :
    axisLen (s.eraseIdx (s.length - 1 - k)) j = axisLen s (if j < k then j else j + 1) := by
  have hl : (s.eraseIdx (s.length - 1 - k)).length = s.length - 1 := List.length_eraseIdx_of_lt (by omega)
  unfold axisLen
  by_cases hj : j < s.length - 1
  · rw [List.getElem?_reverse (by omega), hl, List.getElem?_eraseIdx]
    by_cases h1 : j < k
    · rw [if_pos h1, if_neg (by omega), List.getElem?_reverse (by omega), show s.length - 1 - 1 - j + 1 = s.length - 1 - j by omega]
    · rw [if_neg h1, if_pos (by omega), List.getElem?_reverse (by omega), show s.length - 1 - (j + 1) = s.length - 1 - 1 - j by omega]
  · rw [List.getElem?_eq_none (by rw [List.length_reverse]; omega), if_neg (by omega),
      List.getElem?_eq_none (by rw [List.length_reverse]; omega)]

theorem npSumAxis_at {X S : Arr ℝ} {k : Nat} (h : npSumAxis X k = .ok S) (c : Nat → Nat) :
    S.at c = ∑ t ∈ Finset.range (axisLen X.shape k), X.at (insCoord k t c) := by
  unfold npSumAxis at h
  split at h
  · rename_i hk
    injection h with h
    subst h
    show ∑ t ∈ Finset.range (axisLen X.shape k), X.get _ = ∑ t ∈ Finset.range (axisLen X.shape k), X.get _
    refine Finset.sum_congr rfl fun t ht => ?_
    congr 1
    funext j
    rw [Finset.mem_range] at ht
    simp only [insCoord, restrict, axisLen_eraseIdx _ _ _ hk]
    rcases lt_trichotomy j k with h | h | h
    · simp only [h, if_true]
    · subst h
      simp only [lt_irrefl, if_false, if_true]
      split <;> omega
    · have e : j - 1 + 1 = j := by omega
      simp only [show ¬ j < k by omega, show ¬ j = k by omega, show ¬ j - 1 < k by omega, if_false, e]
  · cases h

theorem axisLen_colsTo (D : Nat) (X : Arr ℝ) (k : Nat) :
    axisLen (colsTo D X).shape k = if k = 0 then min D (axisLen X.shape 0) else axisLen X.shape k := by
  show axisLen (dropAxes X 1 ++ [_]) k = _
  rw [axisLen_append, axisLen_dropAxes]
  match k with
  | 0 => rfl
  | k + 1 => rw [if_neg (by simp), if_neg (by simp)]; rfl

theorem axisLen_colsFrom (D : Nat) (X : Arr ℝ) (k : Nat) :
    axisLen (colsFrom D X).shape k = if k = 0 then axisLen X.shape 0 - D else axisLen X.shape k := by
  show axisLen (dropAxes X 1 ++ [_]) k = _
  rw [axisLen_append, axisLen_dropAxes]
  match k with
  | 0 => rfl
  | k + 1 => rw [if_neg (by simp), if_neg (by simp)]; rfl

theorem axisLen_rowsTo (D : Nat) (X : Arr ℝ) (k : Nat) :
    axisLen (rowsTo D X).shape k = if k = 1 then min D (axisLen X.shape 1) else axisLen X.shape k := by
  show axisLen (dropAxes X 2 ++ [_, _]) k = _
  rw [axisLen_append, axisLen_dropAxes]
  match k with
  | 0 => rfl
  | 1 => rfl
  | k + 2 => rw [if_neg (by simp), if_neg (by simp)]; rfl

theorem axisLen_rowsFrom (D : Nat) (X : Arr ℝ) (k : Nat) :
    axisLen (rowsFrom D X).shape k = if k = 1 then axisLen X.shape 1 - D else axisLen X.shape k := by
  show axisLen (dropAxes X 2 ++ [_, _]) k = _
  rw [axisLen_append, axisLen_dropAxes]
  match k with
  | 0 => rfl
  | 1 => rfl
  | k + 2 => rw [if_neg (by simp), if_neg (by simp)]; rfl

theorem colsTo_at {D : Nat} {X : Arr ℝ} {c : Nat → Nat} (h : c 0 < D) (hX : D ≤ axisLen X.shape 0) : (colsTo D X).at c = X.at c := by
  unfold Arr.at
  show X.get _ = X.get _
  congr 1
  funext k
  simp only [restrict, axisLen_colsTo]
  by_cases hk : k = 0
  · subst hk
    simp only [if_true]
    split_ifs <;> omega
  · simp only [hk, if_false]

theorem rowsTo_at {D : Nat} {X : Arr ℝ} {c : Nat → Nat} (h : c 1 < D) (hX : D ≤ axisLen X.shape 1) : (rowsTo D X).at c = X.at c := by
  unfold Arr.at
  show X.get _ = X.get _
  congr 1
  funext k
  simp only [restrict, axisLen_rowsTo]
  by_cases hk : k = 1
  · subst hk
    simp only [if_true]
    split_ifs <;> omega
  · simp only [hk, if_false]

theorem colsFrom_at {D : Nat} {X : Arr ℝ} {c : Nat → Nat} (h : c 0 + D < axisLen X.shape 0) :
    (colsFrom D X).at c = X.at fun k => if k = 0 then c 0 + D else c k := by
  unfold Arr.at
  show X.get _ = X.get _
  congr 1
  funext k
  simp only [restrict, axisLen_colsFrom]
  by_cases hk : k = 0
  · subst hk
    simp only [if_true]
    split_ifs <;> omega
  · simp only [hk, if_false]

theorem rowsFrom_at {D : Nat} {X : Arr ℝ} {c : Nat → Nat} (h : c 1 + D < axisLen X.shape 1) :
    (rowsFrom D X).at c = X.at fun k => if k = 1 then c 1 + D else c k := by
  unfold Arr.at
  show X.get _ = X.get _
  congr 1
  funext k
  simp only [restrict, axisLen_rowsFrom]
  by_cases hk : k = 1
  · subst hk
    simp only [if_true]
    split_ifs <;> omega
  · simp only [hk, if_false]

theorem fits_of_ok {X : Arr ℝ} {t : List Nat} (h : npFits X t = .ok ()) (k : Nat) :
    axisLen X.shape k = 1 ∨ axisLen X.shape k = axisLen t k := by
  unfold npFits at h
  split at h
  · rename_i hf
    by_cases hk : k < max X.shape.length t.length
    · exact hf k hk
    · exact .inl (axisLen_of_ge (by omega))
  · cases h

/-- The plate coordinates along unit axes do not matter. -/
theorem at_plates {X : Arr ℝ} {plates t : List Nat} (h : npFits X (plates ++ t) = .ok ()) (l : List Nat) (hl : l.length = t.length)
    (p : Nat → Nat) : X.at (coordL l (restrict plates p)) = X.at (coordL l p) := by
  apply X.at_congr
  intro k hk
  unfold coordL
  split
  · rfl
  · have := (fits_of_ok h k).resolve_left hk
    rw [axisLen_append, if_neg (by omega), ← hl] at this
    rw [restrict, if_neg (by omega)]

/-- The entry of a result with plates `plates` and other axes `t` -/
theorem at_result {X : Arr ℝ} {plates t : List Nat} (hs : X.shape = plates ++ t) (l : List Nat) (hl : l.length = t.length)
    (hv : ∀ k (h : k < l.length), l[k] < axisLen t k) (p : Nat → Nat) : X.at (coordL l p) = X.get (coordL l (restrict plates p)) := by
  unfold Arr.at
  congr 1
  funext k
  rw [restrict, hs, axisLen_append]
  by_cases h : k < l.length
  · have := hv k h
    have h' : k < t.length := by omega
    simp only [h', if_true, coordL_lt h]
    split <;> omega
  · have h' : ¬ k < t.length := by omega
    simp only [h', if_false, coordL_ge h, hl]
    rfl

theorem npMul_at {X Y r : Arr ℝ} (h : npMul X Y = .ok r) (c : Nat → Nat) : r.at c = X.at c * Y.at c := by
  unfold npMul at h
  simp only [bind, Except.bind] at h
  split at h
  · cases h
  rename_i s hs
  injection h with h
  subst h
  have hb := (broadcastedShape_ok _ _).mp hs
  show X.at (restrict s c) * Y.at (restrict s c) = _
  congr 1
  all_goals
    apply Arr.at_congr
    intro k hk
    have := (hb.fits k _ (by simp)).resolve_left hk
    rw [restrict, if_neg (by omega)]

theorem einsumMv_at {A b r : Arr ℝ} (h : einsumMv A b = .ok r) {J : Nat} (hA : axisLen A.shape 0 = J) (hb : axisLen b.shape 0 = J)
    (c : Nat → Nat) :
    r.at c = ∑ j ∈ Finset.range J, A.at (insCoord 0 j c) * b.at (insCoord 0 j (delCoord 0 c)) := by
  unfold einsumMv at h
  simp only [bind, Except.bind] at h
  split at h
  · cases h
  rename_i s hs
  split at h
  · cases h
  rename_i L hL
  injection h with h
  subst h
  have hB := (broadcastedShape_ok _ _).mp hs
  have hJ : L = J := by
    have := einsumUnify_ok.mp hL
    rw [hA, hb] at this
    rcases this with ⟨h1, h2⟩
    have := h1 J (by simp)
    simp only [List.mem_cons, List.not_mem_nil, or_false, or_self] at h2
    omega
  subst hJ
  show ∑ j ∈ Finset.range L, A.at (insCoord 0 j (restrict (s ++ [axisLen A.shape 1]) c))
    * b.at (insCoord 0 j (delCoord 0 (restrict (s ++ [axisLen A.shape 1]) c))) = _
  refine Finset.sum_congr rfl fun j _ => ?_
  have ax : ∀ k, axisLen (s ++ [axisLen A.shape 1]) k = if k = 0 then axisLen A.shape 1 else axisLen s (k - 1) := by
    intro k
    rw [axisLen_append]
    match k with
    | 0 => rfl
    | k + 1 => rw [if_neg (by simp), if_neg (by simp)]; rfl
  congr 1
  · apply A.at_congr
    intro k hk
    match k with
    | 0 => rfl
    | 1 =>
      show restrict _ c 0 = c 0
      rw [restrict, ax, if_pos rfl, if_neg hk]
    | k + 2 =>
      show restrict _ c (k + 1) = c (k + 1)
      have := hB.fits k (dropAxes A 2) (by simp)
      rw [axisLen_dropAxes] at this
      have := this.resolve_left hk
      simp only [restrict, ax, Nat.add_sub_cancel, Nat.add_eq_zero_iff, one_ne_zero, and_false, if_false]
      rw [if_neg (by omega)]
  · apply b.at_congr
    intro k hk
    match k with
    | 0 => rfl
    | k + 1 =>
      show restrict _ c (k + 1) = c (k + 1)
      have := hB.fits k (dropAxes b 1) (by simp)
      rw [axisLen_dropAxes] at this
      have := this.resolve_left hk
      simp only [restrict, ax, Nat.add_sub_cancel, Nat.add_eq_zero_iff, one_ne_zero, and_false, if_false]
      rw [if_neg (by omega)]

/-! ### What the arrays mean: tables of one plate -/

section
variable {M D K : Nat}

/-- Position of a column: the states, then the inputs -/
def colPos : Fin D ⊕ Fin K → Nat := Sum.elim (fun i => i) fun k => D + k

/-- The moments of `(A, nu)` for plate `p`, unit axes repeated -/
noncomputable def dynTable (M D K : Nat) (u0 u1 u2 u3 : Arr ℝ) (p : Nat → Nat) : DynIx M D (Fin K) → ℝ :=
  Sum.elim (fun q => u0.at (coordL [colPos q.2.2, q.2.1, q.1] p))
    (Sum.elim (fun q => u1.at (coordL [colPos q.2.2.2, colPos q.2.2.1, q.2.1, q.1] p))
      (Sum.elim (fun q => u2.at (coordL [q.2, q.1] p)) fun q => u3.at (coordL [q.2, q.1] p)))

/-- The moments of the inputs for plate `p` -/
noncomputable def inpTable (M K : Nat) (z0 z1 : Arr ℝ) (p : Nat → Nat) : InpIx M (Fin K) → ℝ :=
  Sum.elim (fun q => z0.at (coordL [q.2, q.1] p)) fun q => z1.at (coordL [q.2.2, q.2.1, q.1] p)

/-- The moments of the initial state for plate `p` -/
noncomputable def initTable (D : Nat) (w0 w1 w2 w3 : Arr ℝ) (p : Nat → Nat) : GWIx (Fin D) → ℝ :=
  mkGW (fun i => w0.at (coordL [i] p)) (w1.at p) (Matrix.of fun i j => w2.at (coordL [j, i] p)) (w3.at p)

variable (w0 w1 w2 w3 u0 u1 u2 u3 z0 z1 : Arr ℝ)

/-- What `phi1` is, whatever the length of the row axis -/
theorem gmcPhi1Arr_at {r : Arr ℝ} (hr : gmcPhi1Arr (M + 1) D w2 u1 u2 = .ok r) (hc : axisLen u1.shape 0 = D + K)
    (hc' : axisLen u1.shape 1 = D + K) (n : Fin (M + 1)) (i j : Fin D) (p : Nat → Nat) :
    r.at (coordL [j, i, n] p) = Fin.cases (motive := fun _ => ℝ) (-0.5 * w2.at (coordL [j, i] p))
        (fun m => -0.5 * (npDiag u2).at (coordL [j, i, m] p)) n
      + Fin.lastCases (motive := fun _ => ℝ) 0
        (fun m => -0.5 * ∑ d ∈ Finset.range (axisLen u1.shape 2), u1.at (coordL [j, i, d, m] p)) n := by
  unfold gmcPhi1Arr at hr
  simp only [bind, Except.bind] at hr
  split at hr
  · cases hr
  rename_i plates hp
  split at hr
  · cases hr
  rename_i h1
  split at hr
  · cases hr
  rename_i h2
  split at hr
  · cases hr
  rename_i s hs
  split at hr
  · cases hr
  rename_i h3
  injection hr with hr
  subst hr
  rw [at_result (plates := plates) (t := [M + 1, D, D]) rfl [j, i, n] rfl ?_ p]
  swap
  · intro k hk
    match k, hk with
    | 0, _ => exact j.2
    | 1, _ => exact i.2
    | 2, _ => exact n.2
  dsimp only
  congr 1
  · induction n using Fin.cases with
    | zero =>
      rw [if_pos (show coordL [(j : Nat), i, ((0 : Fin (M + 1)) : Nat)] (restrict plates p) 2 = 0 from rfl), Fin.cases_zero]
      congr 1
      have : delCoord 2 (coordL [(j : Nat), i, ((0 : Fin (M + 1)) : Nat)] (restrict plates p)) = coordL [(j : Nat), i] (restrict plates p) := by
        funext k
        match k with
        | 0 => rfl
        | 1 => rfl
        | k + 2 => rfl
      rw [this, at_plates h1 [(j : Nat), i] rfl]
    | succ m =>
      rw [if_neg (by simp [coordL]), Fin.cases_succ]
      congr 1
      have : (fun k => if k = 2 then coordL [(j : Nat), i, (m.succ : Nat)] (restrict plates p) 2 - 1
          else coordL [(j : Nat), i, (m.succ : Nat)] (restrict plates p) k) = coordL [(j : Nat), i, m] (restrict plates p) := by
        funext k
        match k with
        | 0 => rfl
        | 1 => rfl
        | 2 => simp [coordL]
        | k + 3 => rfl
      rw [this, at_plates h2 [(j : Nat), i, m] rfl]
  · induction n using Fin.lastCases with
    | last => rw [if_neg (by simp [coordL]), Fin.lastCases_last]
    | cast m =>
      rw [if_pos (by simp [coordL]), Fin.lastCases_castSucc, at_plates h3 [(j : Nat), i, (m.castSucc : Fin (M + 1))] rfl, npSumAxis_at hs]
      congr 1
      rw [axisLen_rowsTo, if_neg (by decide), axisLen_colsTo, if_neg (by decide)]
      refine Finset.sum_congr rfl fun d _ => ?_
      have : insCoord 2 d (coordL [(j : Nat), i, (m.castSucc : Nat)] p) = coordL [(j : Nat), i, d, m] p := by
        funext k
        match k with
        | 0 => rfl
        | 1 => rfl
        | 2 => rfl
        | 3 => rfl
        | k + 4 => rfl
      rw [this, rowsTo_at i.2, colsTo_at j.2 (by omega)]
      rw [axisLen_colsTo, if_neg (by decide)]
      omega

theorem axisLen_npDiag (X : Arr ℝ) (k : Nat) : axisLen (npDiag X).shape k = axisLen X.shape (k - 1) := by
  show axisLen (_ ++ [axisLen X.shape 0]) k = _
  rw [axisLen_append]
  match k with
  | 0 => rfl
  | k + 1 =>
    rw [if_neg (by simp)]
    show axisLen (if X.shape.length = 0 then [1] else X.shape) k = axisLen X.shape k
    split
    · rename_i h
      rw [List.length_eq_zero_iff.mp h]
      match k with
      | 0 => rfl
      | k + 1 => rfl
    · rfl

/-- A diagonal matrix, if the array has the full axis -/
theorem npDiag_full (hD : axisLen u2.shape 0 = D) (m : Fin M) (i j : Fin D) (p : Nat → Nat) :
    (npDiag u2).at (coordL [j, i, m] p) = if i = j then u2.at (coordL [i, m] p) else 0 := by
  show (if restrict (npDiag u2).shape _ 1 = restrict (npDiag u2).shape _ 0 then u2.at (delCoord 0 (restrict (npDiag u2).shape _)) else 0) = _
  have e : ∀ k, restrict (npDiag u2).shape (coordL [(j : Nat), i, m] p) k
      = if axisLen u2.shape (k - 1) = 1 then 0 else coordL [(j : Nat), i, m] p k := fun k => by rw [restrict, axisLen_npDiag]
  have hij : restrict (npDiag u2).shape (coordL [(j : Nat), i, m] p) 1 = restrict (npDiag u2).shape (coordL [(j : Nat), i, m] p) 0
      ↔ i = j := by
    rw [e, e]
    show (if axisLen u2.shape 0 = 1 then 0 else (i : Nat)) = (if axisLen u2.shape 0 = 1 then 0 else (j : Nat)) ↔ _
    rw [Fin.ext_iff]
    have := i.2
    have := j.2
    split <;> omega
  simp only [hij]
  split
  · apply u2.at_congr
    intro k hk
    show restrict (npDiag u2).shape _ (k + 1) = _
    rw [e, Nat.add_sub_cancel, if_neg hk]
    match k with
    | 0 => rfl
    | 1 => rfl
    | k + 2 => rfl
  · rfl

/-- With a unit axis every entry of the block is the precision, not only those on the diagonal. -/
theorem npDiag_unit (hD : axisLen u2.shape 0 = 1) (m i j : Nat) (p : Nat → Nat) :
    (npDiag u2).at (coordL [j, i, m] p) = u2.at (coordL [0, m] p) := by
  show (if restrict (npDiag u2).shape _ 1 = restrict (npDiag u2).shape _ 0 then u2.at (delCoord 0 (restrict (npDiag u2).shape _)) else 0) = _
  have e : ∀ k, restrict (npDiag u2).shape (coordL [(j : Nat), i, m] p) k
      = if axisLen u2.shape (k - 1) = 1 then 0 else coordL [(j : Nat), i, m] p k := fun k => by rw [restrict, axisLen_npDiag]
  rw [if_pos]
  · apply u2.at_congr
    intro k hk
    show restrict (npDiag u2).shape _ (k + 1) = _
    rw [e, Nat.add_sub_cancel, if_neg hk]
    match k with
    | 0 => exact absurd hD hk
    | 1 => rfl
    | k + 2 => rfl
  · rw [e, e, if_pos hD, if_pos hD]

/-- **C64** With full row axes, the natural parameter of the products is that of the formula for one plate, whatever the other axes. -/
theorem C64_gmc_phi1_partial {r : Arr ℝ} (hr : gmcPhi1Arr (M + 1) D w2 u1 u2 = .ok r) (hc : axisLen u1.shape 0 = D + K)
    (hc' : axisLen u1.shape 1 = D + K) (hD : axisLen u1.shape 2 = D) (hD' : axisLen u2.shape 0 = D) (n : Fin (M + 1)) (i j : Fin D)
    (p : Nat → Nat) :
    r.at (coordL [j, i, n] p)
      = c1 (gmcPhi (initTable D w0 w1 w2 w3 p) (dynTable M D K u0 u1 u2 u3 p) (inpTable M K z0 z1 p)) n i j := by
  rw [gmcPhi1Arr_at w2 u1 u2 hr hc hc']
  simp only [hD, Finset.sum_range, npDiag_full (D := D) u2 hD']
  rfl

/-- **C64** With unit row axes, the sum over the rows has one term instead of `D`, and the precision of the noise fills the whole
block. -/
theorem C64_gmc_phi1_unit {r : Arr ℝ} (hr : gmcPhi1Arr (M + 1) D w2 u1 u2 = .ok r) (hc : axisLen u1.shape 0 = D + K)
    (hc' : axisLen u1.shape 1 = D + K) (hD : axisLen u1.shape 2 = 1) (hD' : axisLen u2.shape 0 = 1) (n : Fin (M + 1)) (i j : Fin D)
    (p : Nat → Nat) :
    c1 (gmcPhi (initTable D w0 w1 w2 w3 p) (dynTable M D K u0 u1 u2 u3 p) (inpTable M K z0 z1 p)) n i j
      = r.at (coordL [j, i, n] p)
        + Fin.cases (motive := fun _ => ℝ) 0 (fun m => if i = j then 0 else 0.5 * u2.at (coordL [0, m] p)) n
        - Fin.lastCases (motive := fun _ => ℝ) 0 (fun m => 0.5 * (D - 1) * u1.at (coordL [j, i, 0, m] p)) n := by
  rw [gmcPhi1Arr_at w2 u1 u2 hr hc hc']
  have e : ∀ d m : Nat, u1.at (coordL [(j : Nat), i, d, m] p) = u1.at (coordL [(j : Nat), i, 0, m] p) := by
    intro d m
    apply u1.at_congr
    intro k hk
    have : k ≠ 2 := by rintro rfl; exact hk hD
    match k, this with
    | 0, _ => rfl
    | 1, _ => rfl
    | 3, _ => rfl
    | k + 4, _ => rfl
  have e2 : ∀ d m : Nat, u2.at (coordL [d, m] p) = u2.at (coordL [0, m] p) := by
    intro d m
    apply u2.at_congr
    intro k hk
    match k with
    | 0 => exact absurd hD' hk
    | 1 => rfl
    | k + 2 => rfl
  simp only [hD, Finset.sum_range_one, npDiag_unit u2 hD']
  have : c1 (gmcPhi (initTable D w0 w1 w2 w3 p) (dynTable M D K u0 u1 u2 u3 p) (inpTable M K z0 z1 p)) n i j
      = Fin.cases (motive := fun _ => ℝ) (-0.5 * w2.at (coordL [j, i] p)) (fun m => -0.5 * if i = j then u2.at (coordL [i, m] p) else 0) n
        + Fin.lastCases (motive := fun _ => ℝ) 0 (fun m => -0.5 * ∑ d : Fin D, u1.at (coordL [j, i, d, m] p)) n := rfl
  rw [this]
  have h1 : Fin.lastCases (motive := fun _ => ℝ) 0 (fun m => -0.5 * ∑ d : Fin D, u1.at (coordL [j, i, d, m] p)) n
      = Fin.lastCases (motive := fun _ => ℝ) 0 (fun m => -0.5 * u1.at (coordL [j, i, 0, m] p)) n
        - Fin.lastCases (motive := fun _ => ℝ) 0 (fun m : Fin M => 0.5 * (D - 1) * u1.at (coordL [j, i, 0, m] p)) n := by
    induction n using Fin.lastCases with
    | last => simp only [Fin.lastCases_last, sub_zero]
    | cast m =>
      simp only [Fin.lastCases_castSucc, e, Finset.sum_const, Finset.card_univ, Fintype.card_fin, nsmul_eq_mul]
      ring
  have h2 : Fin.cases (motive := fun _ => ℝ) (-0.5 * w2.at (coordL [j, i] p)) (fun m => -0.5 * if i = j then u2.at (coordL [i, m] p) else 0) n
      = Fin.cases (motive := fun _ => ℝ) (-0.5 * w2.at (coordL [j, i] p)) (fun m => -0.5 * u2.at (coordL [0, m] p)) n
        + Fin.cases (motive := fun _ => ℝ) 0 (fun m : Fin M => if i = j then 0 else 0.5 * u2.at (coordL [0, m] p)) n := by
    induction n using Fin.cases with
    | zero => simp only [Fin.cases_zero, add_zero]
    | succ m =>
      simp only [Fin.cases_succ, e2]
      split <;> ring
  rw [h1, h2]
  ring

/-- **C64** With a full row axis, the linear natural parameter is that of the formula for one plate. -/
theorem C64_gmc_phi0_partial {r : Arr ℝ} (hr : gmcPhi0Arr (M + 1) D w0 u0 u1 z0 = .ok r) (h0 : axisLen u0.shape 0 = D + K)
    (hc : axisLen u1.shape 0 = D + K) (hc' : axisLen u1.shape 1 = D + K) (hD : axisLen u1.shape 2 = D) (hz : axisLen z0.shape 0 = K)
    (n : Fin (M + 1)) (i : Fin D) (p : Nat → Nat) :
    r.at (coordL [i, n] p)
      = c0 (gmcPhi (initTable D w0 w1 w2 w3 p) (dynTable M D K u0 u1 u2 u3 p) (inpTable M K z0 z1 p)) n i := by
  unfold gmcPhi0Arr at hr
  simp only [bind, Except.bind] at hr
  split at hr
  · cases hr
  rename_i plates hp
  split at hr
  · cases hr
  rename_i h1
  split at hr
  · cases hr
  rename_i x1 hx1
  split at hr
  · cases hr
  rename_i h2
  split at hr
  · cases hr
  rename_i s hs
  split at hr
  · cases hr
  rename_i x2 hx2
  split at hr
  · cases hr
  rename_i h3
  injection hr with hr
  subst hr
  rw [at_result (plates := plates) (t := [M + 1, D]) rfl [i, n] rfl ?_ p]
  swap
  · intro k hk
    match k, hk with
    | 0, _ => exact i.2
    | 1, _ => exact n.2
  dsimp only
  show _ = Fin.cases (motive := fun _ => ℝ) (w0.at (coordL [i] p))
        (fun m => ∑ k : Fin K, u0.at (coordL [D + k, i, m] p) * z0.at (coordL [k, m] p)) n
      - Fin.lastCases (motive := fun _ => ℝ) 0 (fun m => ∑ k : Fin K, (∑ d : Fin D, u1.at (coordL [D + k, i, d, m] p))
        * z0.at (coordL [k, m] p)) n
  have hs0 : axisLen s.shape 0 = K := by
    unfold npSumAxis at hs
    split at hs
    · rename_i hl
      injection hs with hs
      rw [← hs, axisLen_eraseIdx _ _ _ hl, if_pos (by decide), axisLen_rowsTo, if_neg (by decide), axisLen_colsFrom, if_pos rfl]
      omega
    · cases hs
  congr 1
  · induction n using Fin.cases with
    | zero =>
      rw [if_pos (show coordL [(i : Nat), ((0 : Fin (M + 1)) : Nat)] (restrict plates p) 1 = 0 from rfl), Fin.cases_zero]
      have : delCoord 1 (coordL [(i : Nat), ((0 : Fin (M + 1)) : Nat)] (restrict plates p)) = coordL [(i : Nat)] (restrict plates p) := by
        funext k
        match k with
        | 0 => rfl
        | k + 1 => rfl
      rw [this, at_plates h1 [(i : Nat)] rfl]
    | succ m =>
      rw [if_neg (by simp [coordL]), Fin.cases_succ]
      have : (fun k => if k = 1 then coordL [(i : Nat), (m.succ : Nat)] (restrict plates p) 1 - 1
          else coordL [(i : Nat), (m.succ : Nat)] (restrict plates p) k) = coordL [(i : Nat), m] (restrict plates p) := by
        funext k
        match k with
        | 0 => rfl
        | 1 => simp [coordL]
        | k + 2 => rfl
      rw [this, at_plates h2 [(i : Nat), m] rfl, einsumMv_at hx1 (J := K) (by rw [axisLen_colsFrom, if_pos rfl]; omega) hz,
        Finset.sum_range]
      refine Finset.sum_congr rfl fun k _ => ?_
      rw [colsFrom_at (by show (k : Nat) + D < _; have := k.2; omega)]
      congr 2
      · funext j
        match j with
        | 0 => show (k : Nat) + D = D + k; omega
        | 1 => rfl
        | 2 => rfl
        | j + 3 => rfl
      · funext j
        match j with
        | 0 => rfl
        | 1 => rfl
        | j + 2 => rfl
  · induction n using Fin.lastCases with
    | last => rw [if_neg (by simp [coordL]), Fin.lastCases_last]
    | cast m =>
      rw [if_pos (by simp [coordL]), Fin.lastCases_castSucc, at_plates h3 [(i : Nat), (m.castSucc : Fin (M + 1))] rfl,
        einsumMv_at hx2 (J := K) hs0 hz, Finset.sum_range]
      refine Finset.sum_congr rfl fun k _ => ?_
      congr 1
      · rw [npSumAxis_at hs, axisLen_rowsTo, if_neg (by decide), axisLen_colsFrom, if_neg (by decide), hD, Finset.sum_range]
        refine Finset.sum_congr rfl fun d _ => ?_
        rw [rowsTo_at (by exact i.2) (by rw [axisLen_colsFrom, if_neg (by decide)]; omega),
          colsFrom_at (by show (k : Nat) + D < _; have := k.2; omega)]
        congr 1
        funext j
        match j with
        | 0 => show (k : Nat) + D = D + k; omega
        | 1 => rfl
        | 2 => rfl
        | 3 => rfl
        | j + 4 => rfl
      · congr 1
        funext j
        match j with
        | 0 => rfl
        | 1 => rfl
        | j + 2 => rfl

/-- **C64** The natural parameter of the products of neighbours is that of the formula for one plate, whatever unit axes. -/
theorem C64_gmc_phi2 {r : Arr ℝ} (hr : gmcPhi2Arr (M + 1) D u0 = .ok r) (h0 : axisLen u0.shape 0 = D + K)
    (m : Fin M) (i j : Fin D) (p : Nat → Nat) :
    r.at (coordL [j, i, m] p)
      = c2 (gmcPhi (initTable D w0 w1 w2 w3 p) (dynTable M D K u0 u1 u2 u3 p) (inpTable M K z0 z1 p)) m i j := by
  unfold gmcPhi2Arr at hr
  simp only [bind, Except.bind] at hr
  split at hr
  · cases hr
  rename_i plates hp
  split at hr
  · cases hr
  rename_i t ht
  split at hr
  · cases hr
  rename_i h1
  injection hr with hr
  subst hr
  rw [at_result (plates := plates) (t := [M, D, D]) rfl [j, i, m] rfl ?_ p]
  swap
  · intro k hk
    match k, hk with
    | 0, _ => exact j.2
    | 1, _ => exact i.2
    | 2, _ => exact m.2
  dsimp only
  rw [at_plates h1 [(j : Nat), i, m] rfl]
  show _ = u0.at (coordL [i, j, m] p)
  have ht' : npSwapAxes (colsTo D u0) 0 1 = .ok t := by
    have : linTranspose (colsTo D u0) 1 = (npSwapAxes (colsTo D u0) 0 1).bind fun x => .ok x := rfl
    rw [this] at ht
    rw [← ht]
    cases npSwapAxes (colsTo D u0) 0 1 <;> rfl
  have : t.at (coordL [(j : Nat), i, m] p) = (colsTo D u0).at (coordL [(i : Nat), j, m] p) := by
    by_cases hh : 0 < (colsTo D u0).shape.length ∧ 1 < (colsTo D u0).shape.length
    · obtain ⟨Y, hY, _, _, hat⟩ := npSwapAxes_ok hh.1 hh.2
      rw [ht'] at hY
      injection hY with hY
      rw [hY, hat]
      congr 1
      funext k
      match k with
      | 0 => rw [Equiv.swap_apply_left]; rfl
      | 1 => rw [Equiv.swap_apply_right]; rfl
      | k + 2 => rw [Equiv.swap_apply_of_ne_of_ne (by simp) (by simp)]; rfl
    · unfold npSwapAxes at ht'
      rw [if_neg hh] at ht'
      cases ht'
  rw [this, colsTo_at (by exact i.2) (by omega)]

/-- **C64** With a full row axis, the part of the cumulant that depends on the noise is that of the formula for one plate, whether the
noise varies over time or not. -/
theorem C64_gmc_cgf_partial {r : Arr ℝ} (hr : gmcCgfNu (M + 1) u3 = .ok r) (hD : axisLen u3.shape 0 = D)
    (hM : axisLen u3.shape 1 = 1 ∨ axisLen u3.shape 1 = M) (p : Nat → Nat) :
    r.at p = 0.5 * ∑ m, ∑ d, d3 (dynTable M D K u0 u1 u2 u3 p) m d := by
  show _ = 0.5 * ∑ m : Fin M, ∑ d : Fin D, u3.at (coordL [d, m] p)
  have e1 : ∀ (d t : Nat), insCoord 0 d (insCoord 0 t p) = coordL [d, t] p := by
    intro d t
    funext k
    match k with
    | 0 => rfl
    | 1 => rfl
    | k + 2 => rfl
  have unit : axisLen u3.shape 1 = 1 → ∀ d t t' : Nat, u3.at (coordL [d, t] p) = u3.at (coordL [d, t'] p) := by
    intro h1 d t t'
    apply u3.at_congr
    intro k hk
    match k with
    | 0 => rfl
    | 1 => exact absurd h1 hk
    | k + 2 => rfl
  have at_smul : ∀ (X : Arr ℝ) (a : ℝ), Arr.at { shape := X.shape, get := fun c => a * X.get c } p = a * X.at p := fun _ _ => rfl
  have const : axisLen u3.shape 1 = 1 → ∑ m : Fin M, ∑ d : Fin D, u3.at (coordL [d, m] p)
      = M * ∑ d : Fin D, u3.at (coordL [d, 0] p) := by
    intro h1
    simp only [fun d t => unit h1 d t 0, Finset.sum_const, Finset.card_univ, Fintype.card_fin, nsmul_eq_mul]
  unfold gmcCgfNu at hr
  split at hr
  · rename_i hl
    have h1 : axisLen u3.shape 1 = 1 := axisLen_of_ge (by omega)
    simp only [bind, Except.bind] at hr
    split at hr
    · cases hr
    rename_i s hs
    injection hr with hr
    subst hr
    rw [at_smul, npSumAxis_at hs, hD, Finset.sum_range, const h1]
    push_cast
    have : ∀ d : Fin D, u3.at (insCoord 0 (d : Nat) p) = u3.at (coordL [(d : Nat), 0] p) := by
      intro d
      apply u3.at_congr
      intro k hk
      match k with
      | 0 => rfl
      | k + 1 => exact absurd (axisLen_of_ge (by omega)) hk
    simp only [this]
    ring
  · split at hr
    · cases hr
    simp only [bind, Except.bind] at hr
    have ax : ∀ s, npSumAxis u3 0 = .ok s → axisLen s.shape 0 = axisLen u3.shape 1 := by
      intro s hs
      unfold npSumAxis at hs
      split at hs
      · rename_i hl
        injection hs with hs
        rw [← hs, axisLen_eraseIdx _ _ _ hl]
        rfl
      · cases hs
    split at hr
    · rename_i h1
      split at hr
      · cases hr
      rename_i s hs
      split at hr
      · cases hr
      rename_i s' hs'
      injection hr with hr
      subst hr
      rw [at_smul, npSumAxis_at hs', ax s hs, h1, Finset.sum_range_one, npSumAxis_at hs, hD, Finset.sum_range, const h1]
      simp only [e1]
      push_cast
      ring
    · rename_i h1
      split at hr
      · cases hr
      rename_i s hs
      split at hr
      · cases hr
      rename_i s' hs'
      injection hr with hr
      subst hr
      rw [at_smul, npSumAxis_at hs', ax s hs, hM.resolve_left h1, Finset.sum_range]
      congr 1
      refine Finset.sum_congr rfl fun m _ => ?_
      rw [npSumAxis_at hs, hD, Finset.sum_range]
      simp only [e1]

/-- **C64** With a full row axis, the second part of the message to the inputs is that of the formula for one plate. -/
theorem C64_gmc_message_inputs_partial {r : Arr ℝ} (hr : gmcMsgInputs1 D u1 = .ok r) (hc : axisLen u1.shape 0 = D + K)
    (hc' : axisLen u1.shape 1 = D + K) (hD : axisLen u1.shape 2 = D) (x : GMCIx M D → ℝ) (m : Fin M) (k l : Fin K) (p : Nat → Nat) :
    r.at (coordL [l, k, m] p) = gmcMsg2 x (dynTable M D K u0 u1 u2 u3 p) (.inr (m, k, l)) := by
  unfold gmcMsgInputs1 at hr
  simp only [bind, Except.bind] at hr
  split at hr
  · cases hr
  rename_i s hs
  injection hr with hr
  subst hr
  show -0.5 * s.at (coordL [(l : Nat), k, m] p) = -0.5 * ∑ d : Fin D, u1.at (coordL [D + l, D + k, d, m] p)
  rw [npSumAxis_at hs, axisLen_rowsFrom, if_neg (by decide), axisLen_colsFrom, if_neg (by decide), hD, Finset.sum_range]
  congr 1
  refine Finset.sum_congr rfl fun d _ => ?_
  rw [rowsFrom_at, colsFrom_at]
  · congr 1
    funext j
    match j with
    | 0 => show (l : Nat) + D = D + l; omega
    | 1 => show (k : Nat) + D = D + k; omega
    | 2 => rfl
    | 3 => rfl
    | j + 4 => rfl
  · show (l : Nat) + D < _
    have := l.2
    omega
  · show (k : Nat) + D < _
    rw [axisLen_colsFrom, if_neg (by decide)]
    have := k.2
    omega

end

/-- **C64** The number of the cumulant of a chain with a single scalar noise precision cannot be computed. -/
theorem C64_gmc_cgf_raises (N : Nat) (u3 : Arr ℝ) (h : u3.shape = []) : gmcCgfNu N u3 = .error .indexError := by
  unfold gmcCgfNu
  simp [h]

/-- **C64** Plates of the inputs that no other parent has make the update raise, though such a node can be constructed. -/
theorem C64_inputs_plates_raises (N D : Nat) (w0 u0 u1 z : Arr ℝ) (k : Nat) (hz : axisLen z.shape (k + 2) ≠ 1)
    (hw : axisLen w0.shape (k + 1) = 1) (h0 : axisLen u0.shape (k + 3) = 1) (h1 : axisLen u1.shape (k + 4) = 1) (r : Arr ℝ) :
    gmcPhi0Arr N D w0 u0 u1 z ≠ .ok r := by
  intro hr
  unfold gmcPhi0Arr at hr
  simp only [bind, Except.bind] at hr
  split at hr
  · cases hr
  rename_i plates hp
  split at hr
  · cases hr
  split at hr
  · cases hr
  rename_i x1 hx1
  split at hr
  · cases hr
  rename_i h2
  have hB := (broadcastedShape_ok _ _).mp hp
  have hpl : axisLen plates k = 1 := by
    rcases hB.attained k with h | ⟨s, hs, h⟩
    · exact h
    · rw [← h]
      simp only [List.mem_cons, List.not_mem_nil, or_false] at hs
      rcases hs with rfl | rfl | rfl
      · rw [axisLen_dropAxes, hw]
      · rw [axisLen_dropAxes, axisLen_colsFrom, if_neg (by omega), h0]
      · rw [axisLen_dropAxes, axisLen_rowsTo, if_neg (by omega), axisLen_colsFrom, if_neg (by omega), h1]
  have hf := fits_of_ok h2 (k + 2)
  have e : axisLen (plates ++ [N - 1, D]) (k + 2) = axisLen plates k := by
    rw [axisLen_append, if_neg (by simp)]
    rfl
  rw [e, hpl, or_self] at hf
  unfold einsumMv at hx1
  simp only [bind, Except.bind] at hx1
  split at hx1
  · cases hx1
  rename_i s hs
  split at hx1
  · cases hx1
  injection hx1 with hx1
  rw [← hx1] at hf
  have e2 : axisLen (s ++ [axisLen (colsFrom D u0).shape 1]) (k + 2) = axisLen s (k + 1) := by
    rw [axisLen_append, if_neg (by simp)]
    rfl
  rw [e2] at hf
  have := ((broadcastedShape_ok _ _).mp hs).fits (k + 1) (dropAxes z 1) (by simp)
  rw [axisLen_dropAxes] at this
  exact hz (this.elim id fun h => h.trans hf)

/-- **C64** The moments of a Gaussian vector with a separate precision, whatever unit axes -/
theorem C64_wrap_second {xx alpha r : Arr ℝ} (hr : wrapSecond xx alpha = .ok r) (i j : Nat) (p : Nat → Nat) :
    r.at (coordL [j, i] p) = xx.at (coordL [j, i] p) * alpha.at p := by
  have hr' : npMul xx { shape := alpha.shape ++ [1, 1], get := fun c => alpha.get fun k => c (k + 2) } = .ok r := by
    unfold wrapSecond at hr
    exact hr
  rw [npMul_at hr']
  congr 1
  show alpha.get _ = alpha.get _
  congr 1
  funext k
  have e : axisLen (alpha.shape ++ [1, 1]) (k + 2) = axisLen alpha.shape k := by
    rw [axisLen_append, if_neg (by simp)]
    rfl
  simp only [restrict, e]
  rfl

example : ∃ r, wrapSecond { shape := [1, 2, 2], get := fun _ => 1 } { shape := [3, 2], get := fun _ => 1 } = .ok r := ⟨_, rfl⟩

/-! ### The prior moments of dynamics and noise with plates `(2,)` -/

/-- second moments of `GaussianARD(0, 1, shape=(2,), plates=(2,))` before its first update -/
def priorXX : Arr ℝ := priorArr [2] [2, 2] fun c => if c 0 = c 1 then 1 else 0

/-- mean of `Gamma(1, 1, plates=(2,))` before its first update -/
def priorNu : Arr ℝ := priorArr [2] [] fun _ => 1

def wrapXX : Arr ℝ :=
  { shape := [1, 2, 2], get := fun c => priorXX.at c * Arr.at { shape := [1, 1, 1], get := fun c => priorNu.get fun k => c (k + 2) } c }

theorem wrapXX_ok : wrapSecond priorXX priorNu = .ok wrapXX := rfl

def eye2 : Arr ℝ := { shape := [2, 2], get := fun c => if c 0 = c 1 then 1 else 0 }

noncomputable def sumXX : Arr ℝ :=
  { shape := [2, 2], get := fun c => ∑ t ∈ Finset.range 1, (rowsTo 2 (colsTo 2 wrapXX)).get (insCoord 2 t c) }

noncomputable def priorPhi1 : Arr ℝ :=
  { shape := [2, 2, 2]
    get := fun c => (if c 2 = 0 then -0.5 * eye2.at (delCoord 2 c) else -0.5 * (npDiag priorNu).at fun k => if k = 2 then c 2 - 1 else c k)
      + if c 2 < 2 - 1 then -0.5 * sumXX.at c else 0 }

theorem priorPhi1_ok : gmcPhi1Arr 2 2 eye2 wrapXX priorNu = .ok priorPhi1 := rfl

theorem priorPhi1_exact (n : Fin 2) (i j : Fin 2) (w0 w1 w3 u0 u3 z0 z1 : Arr ℝ) (p : Nat → Nat) :
    c1 (gmcPhi (initTable 2 w0 w1 eye2 w3 p) (dynTable 1 2 0 u0 wrapXX priorNu u3 p) (inpTable 1 0 z0 z1 p)) n i j
      = priorPhi1.at (coordL [j, i, n] p)
        + Fin.cases (motive := fun _ => ℝ) 0 (fun _ => if i = j then 0 else 0.5) n
        - Fin.lastCases (motive := fun _ => ℝ) 0 (fun _ => 0.5 * if i = j then 1 else 0) n := by
  rw [C64_gmc_phi1_unit (M := 1) (D := 2) (K := 0) w0 w1 eye2 w3 u0 wrapXX priorNu u3 z0 z1 priorPhi1_ok rfl rfl rfl rfl n i j p]
  have e1 : ∀ m : Nat, priorNu.at (coordL [0, m] p) = 1 := fun _ => rfl
  have e2 : ∀ m : Nat, wrapXX.at (coordL [j, i, 0, m] p) = if i = j then 1 else 0 := by
    intro m
    show (if (j : Nat) = i then (1 : ℝ) else 0) * 1 = _
    simp only [Fin.val_inj, mul_one, eq_comm]
  simp only [e1, e2]
  norm_num

/-- **C64** Negation of the general statement: dynamics `GaussianARD(0, 1, shape=(2,), plates=(2,))` and noise
`Gamma(1, 1, plates=(2,))`, both with plates `(2,)` as documented and before their first update.  In the natural parameter of the chain
one of the two rows of the dynamics is missing, and the block of the last state is singular, so that the chain cannot be
initialized. -/
theorem C64_gmc_phi1_refuted (w0 w1 w3 u0 u3 z0 z1 : Arr ℝ) (p : Nat → Nat) :
    ∃ u1 r, wrapSecond priorXX priorNu = .ok u1 ∧ gmcPhi1Arr 2 2 eye2 u1 priorNu = .ok r
      ∧ r.at (coordL [0, 0, 0] p) ≠ c1 (gmcPhi (initTable 2 w0 w1 eye2 w3 p) (dynTable 1 2 0 u0 u1 priorNu u3 p) (inpTable 1 0 z0 z1 p)) 0 0 0
      ∧ r.at (coordL [1, 0, 1] p) ≠ c1 (gmcPhi (initTable 2 w0 w1 eye2 w3 p) (dynTable 1 2 0 u0 u1 priorNu u3 p) (inpTable 1 0 z0 z1 p)) 1 0 1
      ∧ (Matrix.of fun i j : Fin 2 => -2 * r.at (coordL [j, i, 1] p)).det = 0 := by
  refine ⟨wrapXX, priorPhi1, wrapXX_ok, priorPhi1_ok, ?_, ?_, ?_⟩
  · have h := priorPhi1_exact 0 0 0 w0 w1 w3 u0 u3 z0 z1 p
    have hl : Fin.lastCases (motive := fun _ => ℝ) 0 (fun _ : Fin 1 => (0.5 : ℝ) * if (0 : Fin 2) = 0 then 1 else 0) (0 : Fin 2) = 0.5 := by
      rw [show (0 : Fin 2) = (0 : Fin 1).castSucc from rfl, Fin.lastCases_castSucc]
      norm_num
    rw [hl, Fin.cases_zero] at h
    intro h'
    rw [← h'] at h
    have : priorPhi1.at (coordL [0, 0, 0] p) = priorPhi1.at (coordL [0, 0, 0] p) + 0 - 0.5 := h
    linarith
  · have h := priorPhi1_exact 1 0 1 w0 w1 w3 u0 u3 z0 z1 p
    have hl : Fin.lastCases (motive := fun _ => ℝ) 0 (fun _ : Fin 1 => (0.5 : ℝ) * if (0 : Fin 2) = 1 then 1 else 0) (1 : Fin 2) = 0 := by
      rw [show (1 : Fin 2) = Fin.last 1 from rfl, Fin.lastCases_last]
    rw [hl, show (1 : Fin 2) = Fin.succ 0 from rfl, Fin.cases_succ] at h
    intro h'
    rw [show (1 : Fin 2) = Fin.succ 0 from rfl] at h'
    rw [← h'] at h
    have : priorPhi1.at (coordL [1, 0, 1] p) = priorPhi1.at (coordL [1, 0, 1] p) + 0.5 - 0 := h
    linarith
  · have e : ∀ i j : Fin 2, priorPhi1.at (coordL [j, i, 1] p) = -0.5 := by
      intro i j
      refine (gmcPhi1Arr_at (M := 1) (D := 2) (K := 0) eye2 wrapXX priorNu priorPhi1_ok rfl rfl 1 i j p).trans ?_
      rw [show (1 : Fin 2) = Fin.last 1 from rfl,
        Fin.lastCases_last, show Fin.last 1 = Fin.succ 0 from rfl, Fin.cases_succ, npDiag_unit _ rfl]
      show -0.5 * (1 : ℝ) + 0 = -0.5
      norm_num
    rw [Matrix.det_fin_two]
    simp only [Matrix.of_apply, e]
    norm_num

/-- **C64** Negation: the logarithm of the noise precision of one row is counted instead of two. -/
theorem C64_gmc_cgf_refuted (u0 u1 u2 : Arr ℝ) (p : Nat → Nat) :
    ∃ r, gmcCgfNu 2 priorNu = .ok r ∧ r.at p ≠ 0.5 * ∑ m, ∑ d, d3 (dynTable 1 2 0 u0 u1 u2 priorNu p) m d := by
  refine ⟨_, rfl, ?_⟩
  show 0.5 * (((2 : Nat) : ℝ) - 1) * ∑ t ∈ Finset.range 1, (1 : ℝ) ≠ 0.5 * ∑ m : Fin 1, ∑ d : Fin 2, (1 : ℝ)
  norm_num

example : ∃ r, gmcPhi1Arr 3 2 eye2 { shape := [2, 2, 2], get := fun _ => 1 } { shape := [2, 2], get := fun _ => 1 } = .ok r := ⟨_, rfl⟩

example : ∃ r, gmcPhi0Arr 3 2 { shape := [2], get := fun _ => 1 } { shape := [2, 3], get := fun _ => 1 }
    { shape := [2, 3, 3], get := fun _ => 1 } { shape := [2, 1], get := fun _ => 1 } = .ok r := ⟨_, rfl⟩

example : ∃ r, gmcPhi2Arr 3 2 { shape := [2, 3], get := fun _ => 1 } = .ok r := ⟨_, rfl⟩

example : ∃ r, gmcCgfNu 3 { shape := [2], get := fun _ => 1 } = .ok r := ⟨_, rfl⟩

example : ∃ r, gmcMsgInputs1 2 { shape := [2, 3, 3], get := fun _ => 1 } = .ok r := ⟨_, rfl⟩

/-- chain of three states with inputs of plates `(5, 2)`, no other parent has the plate of length five -/
example : gmcPhi0Arr 3 2 { shape := [2], get := fun _ => 1 } { shape := [2, 3], get := fun _ => 1 }
    { shape := [2, 3, 3], get := fun _ => 1 } { shape := [5, 2, 1], get := fun _ => 1 } = .error .valueError := rfl

/-! ### A diagonal Wishart matrix from gamma variables -/

/-- **C64** The matrix is right whatever unit axes; with a full axis the log-determinant is the sum of the logarithms. -/
theorem C64_diag_wishart_partial {D : Nat} {u0 u1 : Arr ℝ} {R : Arr ℝ × Arr ℝ} (hr : diagWishartMoments D u0 u1 = .ok R)
    (p : Nat → Nat) :
    (∀ i j : Fin D, R.1.at (coordL [j, i] p) = if i = j then u0.at (coordL [i] p) else 0)
    ∧ (axisLen u1.shape 0 = D → 0 < u1.shape.length → R.2.at p = ∑ d : Fin D, u1.at (coordL [d] p)) := by
  obtain ⟨s, l, hs, hl, hR⟩ : ∃ s l, broadcastedShape [[D, D], u0.shape ++ [1]] = .ok s
      ∧ (if u1.shape.length = 0 then .ok u1 else npSumAxis u1 0) = .ok l
      ∧ R = ({ shape := s, get := fun c => (if c 1 = c 0 then 1 else 0) * u0.at (delCoord 0 c) }, l) := by
    unfold diagWishartMoments at hr
    cases hs : broadcastedShape [[D, D], u0.shape ++ [1]] with
    | error e => rw [hs] at hr; cases hr
    | ok s =>
      rw [hs] at hr
      by_cases h0 : u1.shape.length = 0
      · simp only [h0, if_true] at hr ⊢
        injection hr with hr
        exact ⟨s, u1, rfl, rfl, hr.symm⟩
      · simp only [h0, if_false] at hr ⊢
        cases hl : npSumAxis u1 0 with
        | error e => rw [hl] at hr; cases hr
        | ok l =>
          rw [hl] at hr
          injection hr with hr
          exact ⟨s, l, rfl, rfl, hr.symm⟩
  subst hR
  have hB := (broadcastedShape_ok _ _).mp hs
  constructor
  · intro i j
    show (if restrict s (coordL [(j : Nat), i] p) 1 = restrict s (coordL [(j : Nat), i] p) 0 then 1 else 0)
      * u0.at (delCoord 0 (restrict s (coordL [(j : Nat), i] p))) = _
    have d0 := hB.fits 0 [D, D] (by simp)
    have d1 := hB.fits 1 [D, D] (by simp)
    have u00 := hB.fits 0 (u0.shape ++ [1]) (by simp)
    have a0 := hB.attained 0
    have a1 := hB.attained 1
    have hax : ∀ k, axisLen (u0.shape ++ [1]) k = if k = 0 then 1 else axisLen u0.shape (k - 1) := by
      intro k
      rw [axisLen_append]
      match k with
      | 0 => rfl
      | k + 1 => rw [if_neg (by simp), if_neg (by simp)]; rfl
    have s0 : axisLen s 0 = D := by
      rcases a0 with h | ⟨t, ht, h⟩
      · have : D = 1 ∨ D = axisLen s 0 := d0
        omega
      · simp only [List.mem_cons, List.not_mem_nil, or_false] at ht
        rcases ht with rfl | rfl
        · exact h.symm
        · rw [hax, if_pos rfl] at h
          have : D = 1 ∨ D = axisLen s 0 := d0
          omega
    have s1 : axisLen s 1 = 1 ∨ ∃ q, axisLen s 1 = q ∧ q ≠ 1 := by
      by_cases h : axisLen s 1 = 1
      · exact .inl h
      · exact .inr ⟨_, rfl, h⟩
    have d1' : D = 1 ∨ D = axisLen s 1 := d1
    have hi := i.2
    have hj := j.2
    by_cases hD : D = 1
    · have hij : i = j := by apply Fin.ext; omega
      have hi0 : (i : Nat) = 0 := by omega
      have hj0 : (j : Nat) = 0 := by omega
      have r1 : restrict s (coordL [(j : Nat), i] p) 1 = restrict s (coordL [(j : Nat), i] p) 0 := by
        show (if axisLen s 1 = 1 then 0 else (i : Nat)) = (if axisLen s 0 = 1 then 0 else (j : Nat))
        rw [hi0, hj0]
        split <;> split <;> rfl
      rw [if_pos r1, if_pos hij, one_mul]
      apply u0.at_congr
      intro k hk
      show restrict s (coordL [(j : Nat), i] p) (k + 1) = _
      have := hB.fits (k + 1) (u0.shape ++ [1]) (by simp)
      rw [hax, if_neg (by omega), Nat.add_sub_cancel] at this
      have := this.resolve_left hk
      rw [restrict, if_neg (by omega)]
      match k with
      | 0 => rfl
      | k + 1 => rfl
    · have s1' := d1'.resolve_left hD
      have r1 : restrict s (coordL [(j : Nat), i] p) 1 = restrict s (coordL [(j : Nat), i] p) 0 ↔ i = j := by
        show (if axisLen s 1 = 1 then 0 else (i : Nat)) = (if axisLen s 0 = 1 then 0 else (j : Nat)) ↔ _
        rw [if_neg (by omega), if_neg (by omega), Fin.ext_iff]
      simp only [r1]
      split
      · rw [one_mul]
        apply u0.at_congr
        intro k hk
        show restrict s (coordL [(j : Nat), i] p) (k + 1) = _
        have := hB.fits (k + 1) (u0.shape ++ [1]) (by simp)
        rw [hax, if_neg (by omega), Nat.add_sub_cancel] at this
        have := this.resolve_left hk
        rw [restrict, if_neg (by omega)]
        match k with
        | 0 => rfl
        | k + 1 => rfl
      · rw [zero_mul]
  · intro hD hl0
    rw [if_neg (by omega)] at hl
    show l.at p = _
    rw [npSumAxis_at hl, hD, Finset.sum_range]
    refine Finset.sum_congr rfl fun d _ => ?_
    congr 1
    funext k
    match k with
    | 0 => rfl
    | k + 1 => rfl

/-- **C64** Negation: `Gamma(1, 1, plates=(2,)).as_diagonal_wishart()` before the first update counts one logarithm of the two. -/
theorem C64_diag_wishart_refuted (a b : ℝ) (hb : b ≠ 0) (p : Nat → Nat) :
    ∃ R, diagWishartMoments 2 (priorArr [2] [] fun _ => a) (priorArr [2] [] fun _ => b) = .ok R
      ∧ R.2.at p ≠ ∑ d : Fin 2, (priorArr [2] [] fun _ => b).at (coordL [d] p) := by
  refine ⟨_, rfl, ?_⟩
  show ∑ t ∈ Finset.range 1, b ≠ ∑ d : Fin 2, b
  rw [Finset.sum_range_one, Fin.sum_univ_two]
  intro h
  apply hb
  linarith

example : ∃ R, diagWishartMoments 2 { shape := [2], get := fun _ => 1 } { shape := [2], get := fun _ => 1 } = .ok R := ⟨_, rfl⟩

/-! ### Discrete chains and varying dynamics -/

/-- **C64** The natural parameter of the transitions of a discrete chain, whatever unit axes -/
theorem C64_cmc_phi1 {M K : Nat} {P r : Arr ℝ} (hr : cmcPhi1Arr (M + 1) K P = .ok r)
    (hP : ∀ k, k < 3 → axisLen P.shape k = 1 ∨ axisLen P.shape k = axisLen [M, K, K] k) :
    (∀ k, k < 3 → axisLen r.shape k = axisLen [M, K, K] k) ∧ ∀ c, r.at c = P.at c := by
  constructor
  · intro k hk
    unfold cmcPhi1Arr npMul at hr
    simp only [bind, Except.bind] at hr
    split at hr
    · cases hr
    rename_i s hs
    injection hr with hr
    subst hr
    have hB := (broadcastedShape_ok _ _).mp hs
    have h1 := hB.fits k [M, K, K] (by simp)
    have h2 := hP k hk
    show axisLen s k = _
    rcases hB.attained k with h | ⟨t, ht, h⟩
    · rcases h1 with h1 | h1
      · rw [h, h1]
      · exact h1.symm
    · simp only [List.mem_cons, List.not_mem_nil, or_false] at ht
      rcases ht with rfl | rfl
      · rcases h1 with h1 | h1
        · rw [h1, ← h]
          rcases h2 with h2 | h2
          · exact h2
          · rw [h2, h1]
        · exact h1.symm
      · exact h.symm
  · intro c
    rw [npMul_at hr c]
    show P.at c * 1 = _
    rw [mul_one]

example : ∃ r, cmcPhi1Arr 3 2 { shape := [1, 2, 2], get := fun _ => 1 } = .ok r := ⟨_, rfl⟩

/-- **C64** Chain with varying dynamics: if the dynamics or the noise precisions have the full row axis, the contraction over the rows
is right. -/
theorem C64_varying_rows_partial {D : Nat} {BB v r : Arr ℝ} (hr : varyingRows BB v = .ok r) (hl : 5 ≤ BB.shape.length)
    (hD : axisLen BB.shape 4 = D ∨ axisLen v.shape 0 = D) (hB : axisLen BB.shape 4 = 1 ∨ axisLen BB.shape 4 = D)
    (hv : axisLen v.shape 0 = 1 ∨ axisLen v.shape 0 = D) (i k j l n : Nat)
    (h3 : i < axisLen BB.shape 3) (h2 : k < axisLen BB.shape 2) (h1 : j < axisLen BB.shape 1) (h0 : l < axisLen BB.shape 0)
    (p : Nat → Nat) :
    r.at (coordL [l, j, k, i, n] p) = ∑ d : Fin D, BB.at (coordL [l, j, k, i, d] p) * v.at (coordL [d, n] p) := by
  unfold varyingRows at hr
  simp only [bind, Except.bind] at hr
  split at hr
  · cases hr
  rename_i s hs
  split at hr
  · cases hr
  rename_i L hL
  injection hr with hr
  subst hr
  have hU := einsumUnify_ok.mp hL
  have hLD : L = D := by
    rcases hU with ⟨ha, hb⟩
    have := ha _ (List.mem_cons_self ..)
    have := ha _ (List.mem_cons_of_mem _ (List.mem_cons_self ..))
    simp only [List.mem_cons, List.not_mem_nil, or_false] at hb
    omega
  subst hLD
  have hbr := (broadcastedShape_ok _ _).mp hs
  set B1 : Arr ℝ := { shape := dropAxes BB 5 ++ 1 :: BB.shape.drop (BB.shape.length - 5), get := fun c => BB.get (delCoord 5 c) }
    with hB1
  have ax1 : ∀ q, axisLen B1.shape (if q < 5 then q else q + 1) = axisLen BB.shape q := by
    intro q
    have hdl : (1 :: BB.shape.drop (BB.shape.length - 5)).length = 6 := by
      rw [List.length_cons, List.length_drop]; omega
    show axisLen (dropAxes BB 5 ++ _) _ = _
    rw [axisLen_append, hdl]
    by_cases hq : q < 5
    · have e : axisLen BB.shape q = axisLen (dropAxes BB 5 ++ BB.shape.drop (BB.shape.length - 5)) q := by
        unfold dropAxes
        rw [List.take_append_drop]
      rw [if_pos hq, if_pos (by omega), e, axisLen_append, if_pos (by rw [List.length_drop]; omega),
        show (1 :: BB.shape.drop (BB.shape.length - 5)) = [1] ++ BB.shape.drop (BB.shape.length - 5) from rfl, axisLen_append,
        if_pos (by rw [List.length_drop]; omega)]
    · rw [if_neg hq, if_neg (by omega), axisLen_dropAxes]
      congr 1
      omega
  have at1 : ∀ c, B1.at c = BB.at (delCoord 5 c) := by
    intro c
    show BB.get _ = BB.get _
    congr 1
    funext q
    have := ax1 q
    by_cases hq : q < 5
    · simp only [hq, if_true] at this
      simp only [delCoord, restrict, hq, if_true, this]
    · simp only [hq, if_false] at this
      simp only [delCoord, restrict, hq, if_false, this]
  set c := coordL [l, j, k, i, n] p with hc
  set rs := s ++ [axisLen BB.shape 3, axisLen BB.shape 2, axisLen BB.shape 1, axisLen BB.shape 0] with hrs
  have rlow : ∀ q, q < 4 → restrict rs c q = c q := by
    intro q hq
    have e : axisLen rs q = axisLen BB.shape q := by
      rw [hrs, axisLen_append, if_pos (by exact hq)]
      match q, hq with
      | 0, _ => rfl
      | 1, _ => rfl
      | 2, _ => rfl
      | 3, _ => rfl
    rw [restrict, e]
    match q, hq with
    | 0, _ => show (if _ then 0 else l) = l; split <;> omega
    | 1, _ => show (if _ then 0 else j) = j; split <;> omega
    | 2, _ => show (if _ then 0 else k) = k; split <;> omega
    | 3, _ => show (if _ then 0 else i) = i; split <;> omega
  have rhigh : ∀ q, restrict rs c (q + 4) = if axisLen s q = 1 then 0 else c (q + 4) := by
    intro q
    have e : axisLen rs (q + 4) = axisLen s q := by
      rw [hrs, axisLen_append, if_neg (by simp)]
      rfl
    rw [restrict, e]
  show ∑ t ∈ Finset.range L, B1.at (insCoord 4 t (restrict rs c)) * v.at (coordL [t] fun q => restrict rs c (q + 4)) = _
  rw [Finset.sum_range]
  refine Finset.sum_congr rfl fun d _ => ?_
  congr 1
  · rw [at1]
    apply BB.at_congr
    intro q hq
    match q with
    | 0 => exact rlow 0 (by omega)
    | 1 => exact rlow 1 (by omega)
    | 2 => exact rlow 2 (by omega)
    | 3 => exact rlow 3 (by omega)
    | 4 => rfl
    | q + 5 =>
      show restrict rs c (q + 5) = p q
      have := hbr.fits (q + 1) (dropAxes B1 5) (by simp)
      rw [axisLen_dropAxes] at this
      have e := ax1 (q + 5)
      rw [if_neg (by omega)] at e
      rw [show q + 1 + 5 = q + 5 + 1 by omega, e] at this
      rw [show q + 5 = (q + 1) + 4 by omega, rhigh, if_neg (fun h => hq ((this.resolve_left hq).trans h))]
      rfl
  · apply v.at_congr
    intro q hq
    match q with
    | 0 => rfl
    | q + 1 =>
      show restrict rs c (q + 4) = _
      have := hbr.fits q (dropAxes v 1) (by simp)
      rw [axisLen_dropAxes] at this
      rw [rhigh, if_neg (fun h => hq ((this.resolve_left hq).trans h))]
      match q with
      | 0 => rfl
      | q + 1 => rfl

example : ∃ r, varyingRows { shape := [2, 2, 3, 2, 3], get := fun _ => 1 } { shape := [1], get := fun _ => 1 } = .ok r := ⟨_, rfl⟩

/-- **C64** Negation: dynamics and noise precisions with plates `(2,)` before their first update -/
theorem C64_varying_rows_refuted (p : Nat → Nat) :
    ∃ r, varyingRows (priorArr [2] [2, 1, 2, 1] fun _ => 1) (priorArr [2] [] fun _ => 1) = .ok r
      ∧ r.at (coordL [0, 0, 0, 0, 0] p) ≠ ∑ d : Fin 2, (priorArr [2] [2, 1, 2, 1] fun _ => 1).at (coordL [0, 0, 0, 0, d] p)
        * (priorArr [2] [] fun _ => 1).at (coordL [d, 0] p) := by
  refine ⟨_, rfl, ?_⟩
  show ∑ t ∈ Finset.range 1, (1 : ℝ) * 1 ≠ ∑ d : Fin 2, (1 : ℝ) * 1
  norm_num

end Verif
