import Verif.Spec.Linalg
import Verif.Model.Linalg
import Verif.Props.Gate

/-!
# Meaning of the functions of `linalg.py` on arrays with plates
-/

namespace Verif
open Spec

theorem Spec.PlatesDims.broadcastsTo {s P dims : List Nat} (h : PlatesDims s P dims) : BroadcastsTo s (P ++ dims) := by
  obtain ⟨S, rfl, hS⟩ := h
  refine ⟨by simpa using hS.1, fun k => ?_⟩
  rw [axisLen_append, axisLen_append]
  split
  · exact .inr rfl
  · exact hS.2 _

theorem Spec.PlatesDims.full {s P dims : List Nat} (h : PlatesDims s P dims) :
    dims.length ≤ s.length ∧ ∀ k < dims.length, axisLen s k = axisLen dims k := by
  obtain ⟨S, rfl, hS⟩ := h
  refine ⟨by simp, fun k hk => ?_⟩
  rw [axisLen_append, if_pos hk]

theorem platesDims_of {s P dims : List Nat} (hb : BroadcastsTo s (P ++ dims)) (hl : dims.length ≤ s.length)
    (hf : ∀ k < dims.length, axisLen s k = axisLen dims k) : PlatesDims s P dims := by
  refine ⟨s.take (s.length - dims.length), ?_, BroadcastsTo.take hb hl⟩
  conv_lhs => rw [← List.take_append_drop (s.length - dims.length) s]
  rw [drop_eq_of_axisLen hl hf]

/-- A broadcast shape has the variable axes in full if one of the shapes has. -/
theorem platesDims_of_isBroadcast {ss : List (List Nat)} {r P dims : List Nat} (h : IsBroadcast ss r)
    (hr : BroadcastsTo r (P ++ dims)) {s : List Nat} (hs : s ∈ ss) (hp : PlatesDims s P dims) :
    PlatesDims r P dims := by
  obtain ⟨hl, hf⟩ := hp.full
  refine platesDims_of hr (le_trans hl (h.rank_ge _ hs)) fun k hk => ?_
  have h1 := hr.2 k
  rw [axisLen_append, if_pos hk] at h1
  have h2 := h.fits k s hs
  rw [hf k hk] at h2
  omega

section
variable {α : Type} {P dims dims' : List Nat}

theorem npInsertAxes_axisLen {n num : Nat} {s : List Nat} (hn : n ≤ s.length) (j : Nat) :
    axisLen (s.take (s.length - n) ++ List.replicate num 1 ++ s.drop (s.length - n)) j =
      if j < n then axisLen s j else if j < n + num then 1 else axisLen s (j - num) := by
  have hl : (s.drop (s.length - n)).length = n := by simp; omega
  have hP : ∀ k, axisLen s k = if k < n then axisLen (s.drop (s.length - n)) k
      else axisLen (s.take (s.length - n)) (k - n) := by
    intro k
    conv_lhs => rw [← List.take_append_drop (s.length - n) s]
    rw [axisLen_append, hl]
  rw [axisLen_append, hl, axisLen_append, List.length_replicate]
  by_cases h1 : j < n
  · rw [if_pos h1, if_pos h1, hP j, if_pos h1]
  · rw [if_neg h1, if_neg h1]
    by_cases h2 : j < n + num
    · rw [if_pos h2, if_pos (by omega)]
      unfold axisLen
      rw [List.reverse_replicate, List.getElem?_replicate]
      split <;> rfl
    · rw [if_neg h2, if_neg (by omega), hP, if_neg (by omega)]
      congr 1
      omega

theorem npInsertAxes_ok {X : Arr α} {n num : Nat} (hn : n ≤ X.shape.length) :
    (npInsertAxes X n num).shape.length = X.shape.length + num ∧
    (∀ j, axisLen (npInsertAxes X n num).shape j =
      if j < n then axisLen X.shape j else if j < n + num then 1 else axisLen X.shape (j - num)) ∧
    ∀ c, (npInsertAxes X n num).at c = X.at fun k => if k < n then c k else c (k + num) := by
  refine ⟨?_, npInsertAxes_axisLen hn, fun c => ?_⟩
  · show (_ ++ _ ++ _ : List Nat).length = _
    simp
    omega
  · show X.get _ = X.get _
    congr 1
    funext k
    unfold restrict
    simp only [npInsertAxes, npInsertAxes_axisLen hn]
    by_cases h : k < n
    · simp only [h, if_true]
    · have h2 : ¬ k + num < n := by omega
      have h3 : ¬ k + num < n + num := by omega
      simp only [h, h2, h3, if_false, Nat.add_sub_cancel]

/-- The meaning of an array with unit axes inserted between plates and variable axes. -/
theorem inserted_ok {X Y : Arr α} {num : Nat} {Q : List Nat} (hQ : Q.length = num)
    (hX : BroadcastsTo X.shape (P ++ dims)) (hl : Y.shape.length = X.shape.length + num)
    (hax : ∀ j, axisLen Y.shape j = if j < dims.length then axisLen X.shape j else
      if j < dims.length + num then 1 else axisLen X.shape (j - num))
    (hat : ∀ c, Y.at c = X.at fun k => if k < dims.length then c k else c (k + num)) :
    BroadcastsTo Y.shape (P ++ Q ++ dims) ∧
      ∀ d q p, Y.at (joinC dims.length d (joinC num q p)) = X.at (joinC dims.length d p) := by
  subst hQ
  refine ⟨⟨?_, fun j => ?_⟩, fun d q p => ?_⟩
  · have := hX.1
    rw [hl]
    simp only [List.length_append] at this ⊢
    omega
  · rw [hax, axisLen_append, axisLen_append]
    by_cases h1 : j < dims.length
    · rw [if_pos h1, if_pos h1]
      have := hX.2 j
      rwa [axisLen_append, if_pos h1] at this
    · rw [if_neg h1, if_neg h1]
      by_cases h2 : j < dims.length + Q.length
      · rw [if_pos h2]; exact .inl rfl
      · rw [if_neg h2, if_neg (by omega)]
        have := hX.2 (j - Q.length)
        rw [axisLen_append, if_neg (by omega)] at this
        rwa [show j - dims.length - Q.length = j - Q.length - dims.length by omega]
  · rw [hat]
    congr 1
    funext k
    by_cases h1 : k < dims.length
    · rw [if_pos h1, joinC_lt _ _ h1, joinC_lt _ _ h1]
    · rw [if_neg h1, joinC_ge _ _ (by omega), joinC_ge _ _ h1, joinC_ge _ _ (by omega)]
      congr 1
      omega

theorem trailing_ok {X : Arr α} {Q : List Nat} (hX : BroadcastsTo X.shape P) :
    BroadcastsTo (npInsertAxes X 0 Q.length).shape (P ++ Q) ∧
      ∀ d p, (npInsertAxes X 0 Q.length).at (joinC Q.length d p) = X.at p := by
  obtain ⟨hl, hax, hat⟩ := npInsertAxes_ok (X := X) (n := 0) (num := Q.length) (by omega)
  obtain ⟨h1, h2⟩ := inserted_ok (P := P) (dims := []) (Q := Q) rfl (by simpa using hX) hl hax hat
  refine ⟨by simpa using h1, fun d p => ?_⟩
  have := h2 (fun _ => 0) d p
  have e : ∀ q, joinC ([] : List Nat).length (fun _ => 0) q = q := by
    intro q
    funext k
    exact joinC_ge _ _ (by simp)
  rwa [e, e] at this

theorem linOuter_ok [Mul α] {A B : Arr α} (hA : BroadcastsTo A.shape (P ++ dims))
    (hB : BroadcastsTo B.shape (P ++ dims')) (hn : dims.length = dims'.length)
    (hAl : dims.length ≤ A.shape.length) (hBl : dims'.length ≤ B.shape.length) :
    ∃ Y, linOuter A B dims.length = .ok Y ∧ BroadcastsTo Y.shape (P ++ dims ++ dims') ∧ dims.length + dims'.length ≤ Y.shape.length ∧
      ∀ d e p, Y.at (joinC dims'.length e (joinC dims.length d p)) =
        A.at (joinC dims.length d p) * B.at (joinC dims'.length e p) := by
  obtain ⟨hA1, hA2⟩ := trailing_ok (Q := dims') hA
  obtain ⟨hl, hax, hat⟩ := npInsertAxes_ok (X := B) (n := dims'.length) (num := dims.length) hBl
  obtain ⟨hB1, hB2⟩ := inserted_ok (P := P) (Q := dims) rfl hB hl hax hat
  obtain ⟨Y, hY, hYB, hYb, hYat⟩ := npMul_common hA1 hB1
  refine ⟨Y, ?_, hYb, ?_, fun d e p => ?_⟩
  · unfold linOuter
    by_cases h : dims.length > 0
    · rw [if_pos h, if_neg (by omega), if_neg (by omega)]
      rw [← hn] at hY
      exact hY
    · rw [if_neg h]
      have h0 : dims.length = 0 := by omega
      have e1 : ∀ X : Arr α, npInsertAxes X 0 0 = X := by
        intro X
        unfold npInsertAxes
        simp
      rw [← hn, h0] at hY
      rwa [e1, e1] at hY
  · have := hYB.rank_ge (npInsertAxes B dims'.length dims.length).shape (by simp)
    omega
  · rw [hYat, hA2, hB2]

theorem npSwapAxes_ok {X : Arr α} {i j : Nat} (hi : i < X.shape.length) (hj : j < X.shape.length) :
    ∃ Y, npSwapAxes X i j = .ok Y ∧ Y.shape.length = X.shape.length ∧
      (∀ k, axisLen Y.shape k = axisLen X.shape (Equiv.swap i j k)) ∧
      ∀ c, Y.at c = X.at fun k => c (Equiv.swap i j k) := by
  have hax : ∀ k, axisLen ((List.range X.shape.length).reverse.map
      fun k => axisLen X.shape (Equiv.swap i j k)) k = axisLen X.shape (Equiv.swap i j k) := by
    intro k
    unfold axisLen
    rw [← List.map_reverse, List.reverse_reverse, List.getElem?_map]
    by_cases h : k < X.shape.length
    · rw [List.getElem?_range h]; rfl
    · rw [List.getElem?_eq_none (by simpa using h)]
      have : Equiv.swap i j k = k := Equiv.swap_apply_of_ne_of_ne (by omega) (by omega)
      rw [this, List.getElem?_eq_none (by simpa using h)]
      rfl
  unfold npSwapAxes
  rw [if_pos ⟨hi, hj⟩]
  refine ⟨_, rfl, by simp, hax, fun c => ?_⟩
  show X.get _ = X.get _
  congr 1
  funext k
  unfold restrict
  simp only [hax, Equiv.swap_apply_self]

/-- where `transpose` takes the axes from after `k` rounds -/
def swapBlocks (n k j : Nat) : Nat := if j < k then j + n else if n ≤ j ∧ j < n + k then j - n else j

theorem linTranspose_core {X : Arr α} {n : Nat} (hl : n + n ≤ X.shape.length) : ∀ k ≤ n,
    ∃ Y, (List.range k).foldlM (fun X m => npSwapAxes X m (n + m)) X = Except.ok (ε := PyErr) Y ∧
      Y.shape.length = X.shape.length ∧ (∀ j, axisLen Y.shape j = axisLen X.shape (swapBlocks n k j)) ∧
      ∀ c, Y.at c = X.at fun j => c (swapBlocks n k j) := by
  let σ : Nat → Nat → Nat := swapBlocks n
  show ∀ k ≤ n, ∃ Y, (List.range k).foldlM (fun X m => npSwapAxes X m (n + m)) X = Except.ok (ε := PyErr) Y ∧
      Y.shape.length = X.shape.length ∧ (∀ j, axisLen Y.shape j = axisLen X.shape (σ k j)) ∧
      ∀ c, Y.at c = X.at fun j => c (σ k j)
  intro k
  induction k with
  | zero =>
    intro _
    have : ∀ j, σ 0 j = j := by intro j; simp only [σ, swapBlocks]; split <;> (try split) <;> omega
    exact ⟨X, rfl, rfl, fun j => by rw [this], fun c => by simp only [this]⟩
  | succ k ih =>
    intro hk
    obtain ⟨Y, hY, hYl, hYax, hYat⟩ := ih (by omega)
    obtain ⟨Z, hZ, hZl, hZax, hZat⟩ := npSwapAxes_ok (X := Y) (i := k) (j := n + k) (by omega) (by omega)
    have e : ∀ j, σ k (Equiv.swap k (n + k) j) = σ (k + 1) j := by
      intro j
      by_cases h1 : j = k
      · subst h1
        rw [Equiv.swap_apply_left]
        simp only [σ, swapBlocks]
        (repeat' split) <;> omega
      · by_cases h2 : j = n + k
        · subst h2
          rw [Equiv.swap_apply_right]
          simp only [σ, swapBlocks]
          (repeat' split) <;> omega
        · rw [Equiv.swap_apply_of_ne_of_ne h1 h2]
          simp only [σ, swapBlocks]
          (repeat' split) <;> omega
    have e' : ∀ j, Equiv.swap k (n + k) (σ k j) = σ (k + 1) j := by
      intro j
      by_cases h1 : j = k
      · subst h1
        have : σ j j = j := by simp only [σ, swapBlocks]; (repeat' split) <;> omega
        rw [this, Equiv.swap_apply_left]
        simp only [σ, swapBlocks]
        (repeat' split) <;> omega
      · by_cases h2 : j = n + k
        · subst h2
          have : σ k (n + k) = n + k := by simp only [σ, swapBlocks]; (repeat' split) <;> omega
          rw [this, Equiv.swap_apply_right]
          simp only [σ, swapBlocks]
          (repeat' split) <;> omega
        · rw [Equiv.swap_apply_of_ne_of_ne]
          · simp only [σ, swapBlocks]
            (repeat' split) <;> omega
          · simp only [σ, swapBlocks]
            (repeat' split) <;> omega
          · simp only [σ, swapBlocks]
            (repeat' split) <;> omega
    refine ⟨Z, ?_, by omega, fun j => by rw [hZax, hYax, e], fun c => ?_⟩
    · rw [List.range_succ, List.foldlM_append]
      simp only [bind, Except.bind] at hY ⊢
      rw [hY]
      simp only [List.foldlM_cons, List.foldlM_nil]
      simp only [bind, Except.bind]
      rw [hZ]
      rfl
    · rw [hZat, hYat]
      simp only [e']

theorem linTranspose_ok {X : Arr α} (hX : BroadcastsTo X.shape (P ++ dims ++ dims))
    (hl : dims.length + dims.length ≤ X.shape.length) :
    ∃ Y, linTranspose X dims.length = .ok Y ∧ BroadcastsTo Y.shape (P ++ dims ++ dims) ∧
      ∀ d e p, Y.at (joinC dims.length e (joinC dims.length d p)) =
        X.at (joinC dims.length d (joinC dims.length e p)) := by
  set n := dims.length with hn
  let σ : Nat → Nat → Nat := fun k j => if j < k then j + n else if n ≤ j ∧ j < n + k then j - n else j
  obtain ⟨Y, hY, hYl, hYax, hYat⟩ := linTranspose_core hl n le_rfl
  refine ⟨Y, hY, ⟨by rw [hYl]; exact hX.1, fun j => ?_⟩, fun d e p => ?_⟩
  · rw [hYax]
    show axisLen X.shape (σ n j) = 1 ∨ axisLen X.shape (σ n j) = _
    have h1 := hX.2 (σ n j)
    have : axisLen (P ++ dims ++ dims) (σ n j) = axisLen (P ++ dims ++ dims) j := by
      simp only [axisLen_append, ← hn, σ]
      by_cases h1 : j < n
      · simp [h1]
      · by_cases h2 : j < n + n
        · have h3 : j - n < n := by omega
          have h4 : n ≤ j := by omega
          simp [h1, h2, h3, h4]
        · simp [h1, h2]
    rwa [this] at h1
  · rw [hYat]
    congr 1
    funext k
    simp only [swapBlocks]
    by_cases h1 : k < n
    · rw [if_pos h1, joinC_ge _ _ (by omega), joinC_lt _ _ (by omega), joinC_lt _ _ h1, Nat.add_sub_cancel]
    · rw [if_neg h1]
      by_cases h2 : k < n + n
      · rw [if_pos ⟨by omega, h2⟩, joinC_lt _ _ (by omega), joinC_ge _ _ h1, joinC_lt _ _ (by omega)]
      · rw [if_neg (by omega), joinC_ge _ _ h1, joinC_ge _ _ (by omega), joinC_ge _ _ h1, joinC_ge _ _ (by omega)]

theorem addAxes_ok {X : Arr α} {n : Nat} (num : Nat) (hn : n ≤ X.shape.length) :
    ∃ Y, addAxes X num n = .ok Y ∧ Y.shape.length = X.shape.length + num ∧
      (∀ j, axisLen Y.shape j =
        if j < n then axisLen X.shape j else if j < n + num then 1 else axisLen X.shape (j - num)) ∧
      ∀ c, Y.at c = X.at fun k => if k < n then c k else c (k + num) := by
  unfold addAxes
  induction num with
  | zero =>
    refine ⟨X, rfl, rfl, fun j => ?_, fun c => ?_⟩
    · split
      · rfl
      · rw [if_neg (by omega)]; rfl
    · congr 1
      funext k
      simp
  | succ num ih =>
    obtain ⟨Y, hY, hYl, hYax, hYat⟩ := ih
    obtain ⟨Z, hZ, hZl, hZax, hZat⟩ := npExpandDims_ok (X := Y) (g := n) (by omega)
    refine ⟨Z, ?_, by omega, fun j => ?_, fun c => ?_⟩
    · rw [List.range_succ, List.foldlM_append]
      simp only [bind, Except.bind] at hY ⊢
      rw [hY]
      simp only [List.foldlM_cons, List.foldlM_nil]
      simp only [bind, Except.bind]
      rw [hZ]
      rfl
    · rw [hZax, hYax, hYax]
      by_cases h1 : j < n
      · rw [if_pos h1, if_pos h1, if_pos h1]
      · rw [if_neg h1, if_neg h1]
        by_cases h2 : j = n
        · rw [if_pos h2, if_pos (by omega)]
        · rw [if_neg h2, if_neg (by omega)]
          by_cases h3 : j < n + (num + 1)
          · rw [if_pos h3, if_pos (by omega)]
          · rw [if_neg h3, if_neg (by omega)]
            congr 1
            omega
    · rw [hZat, hYat]
      congr 1
      funext k
      by_cases h1 : k < n
      · rw [if_pos h1, if_pos h1, if_pos h1]
      · rw [if_neg h1, if_neg (by omega), if_neg h1]
        rfl

theorem linMvdot_ok [CommSemiring α] {A b : Arr α} (hA : BroadcastsTo A.shape (P ++ dims ++ dims'))
    (hb : PlatesDims b.shape P dims') (hn : dims.length = dims'.length) :
    ∃ y, linMvdot A b dims'.length = .ok y ∧ BroadcastsTo y.shape (P ++ dims) ∧
      ∀ d p, ValidIn dims d → ValidIn P p → y.at (joinC dims.length d p) = sumOver dims' fun e =>
        A.at (joinC dims'.length e (joinC dims.length d p)) * b.at (joinC dims'.length e p) := by
  obtain ⟨b', hb', hbl, hbax, hbat⟩ := addAxes_ok (X := b) (n := dims'.length) dims.length hb.full.1
  obtain ⟨hB1, hB2⟩ := inserted_ok (P := P) (Q := dims) rfl hb.broadcastsTo hbl hbax hbat
  obtain ⟨y, hy, hyb, hyat⟩ := (sumMultiply_last hA hB1 (.inr ⟨by omega, fun k hk => by
    rw [hbax, if_pos hk, hb.full.2 k hk]⟩)).1
  refine ⟨y, ?_, hyb, fun d p hd hp => ?_⟩
  · unfold linMvdot linInner
    by_cases h : dims'.length > 0
    · rw [if_pos h]
      rw [hn] at hb'
      rw [hb']
      exact hy
    · rw [if_neg h]
      have h0 : dims'.length = 0 := by omega
      have : b' = b := by
        rw [hn, h0] at hb'
        simpa [addAxes, pure, Except.pure] using hb'.symm
      subst this
      exact hy
  · rw [hyat _ (validIn_joinC hd hp)]
    simp only [hB2]

end

end Verif
