import Verif.Model.LinalgAxes
import Verif.Lemmas.MultiAxes
import Verif.Lemmas.Keyed
import Verif.Props.Shape

/-!
# C79: products and diagonals of arrays of matrices

`matrixOf X p s t` is the matrix over the axes `s` and `t` on plate `p`, and `vectorOf X p s` the vector, both read with
broadcasting over the plates.
-/

namespace Verif
open Spec Matrix

theorem matrixOf_joinC {α : Type} (X : Arr α) (p s t : List Nat) (i : MultiIndex s) (j : MultiIndex t) :
    matrixOf X p s t i j = X.at (joinC t.length (coord j) (joinC s.length (coord i) (coord p))) := by
  show X.at (coord (p ++ i ++ j)) = _
  rw [coord_joinC_mem (multi_mem j), coord_joinC_mem (multi_mem i)]

theorem vectorOf_joinC {α : Type} (X : Arr α) (p s : List Nat) (i : MultiIndex s) :
    vectorOf X p s i = X.at (joinC s.length (coord i) (coord p)) := by
  show X.at (coord (p ++ i)) = _
  rw [coord_joinC_mem (multi_mem i)]

section
variable {α : Type} [CommSemiring α] {pa pb P s t : List Nat}

/-! ## Products -/

/-- **C79** `outer(A, B, ndim)` is the outer product on every plate; the axes of `A` come first. -/
theorem C79_outer {A B : Arr α} (hA : A.shape = pa ++ s) (hB : B.shape = pb ++ t) (hst : s.length = t.length)
    (hP : IsBroadcast [pa, pb] P) :
    ∃ Y, linOuter A B s.length = .ok Y ∧ Y.shape = P ++ s ++ t ∧
      ∀ p ∈ indices P, matrixOf Y p s t = vecMulVec (vectorOf A p s) (vectorOf B p t) := by
  have hA' : BroadcastsTo A.shape (P ++ s) := by
    rw [hA]; exact IsBroadcast.to (isBroadcast_append₂ hP (isBroadcast_self s) rfl rfl) (by simp)
  have hB' : BroadcastsTo B.shape (P ++ t) := by
    rw [hB]; exact IsBroadcast.to (isBroadcast_append₂ hP (isBroadcast_self t) rfl rfl) (by simp)
  obtain ⟨Y, h1, _, _, h4⟩ := linOuter_ok hA' hB' hst (by rw [hA]; simp) (by rw [hB]; simp)
  refine ⟨Y, h1, ?_, fun p hp => ?_⟩
  · have hb : IsBroadcast [pa ++ s ++ List.replicate t.length 1, pb ++ List.replicate s.length 1 ++ t] (P ++ s ++ t) := by
      refine isBroadcast_append₂ (isBroadcast_append₂ hP (isBroadcast_ones s) rfl (by simp))
        (isBroadcast_comm (isBroadcast_ones t)) (by simp) rfl
    have hm : ∃ r, (npMul (npInsertAxes A 0 s.length) (npInsertAxes B s.length s.length)) = .ok r ∧ r.shape = P ++ s ++ t := by
      obtain ⟨r, h, h', _⟩ := npMul_ok (X := npInsertAxes A 0 s.length) (Y := npInsertAxes B s.length s.length) (B := P ++ s ++ t)
        (by
          have e1 : (npInsertAxes A 0 s.length).shape = pa ++ s ++ List.replicate t.length 1 := by
            show A.shape.take (A.shape.length - 0) ++ _ ++ A.shape.drop (A.shape.length - 0) = _
            rw [Nat.sub_zero, List.take_length, List.drop_length, hA, hst, List.append_nil]
          have e2 : (npInsertAxes B s.length s.length).shape = pb ++ List.replicate s.length 1 ++ t := by
            simp [npInsertAxes, hB, hst]
          rw [e1, e2]
          exact hb)
      exact ⟨r, h, h'⟩
    obtain ⟨r, hr, hr'⟩ := hm
    unfold linOuter at h1
    rcases Nat.eq_zero_or_pos s.length with h0 | h0
    · rw [if_neg (by omega)] at h1
      have hs : s = [] := List.length_eq_zero_iff.1 h0
      have ht : t = [] := List.length_eq_zero_iff.1 (by omega)
      subst hs ht
      obtain ⟨r, g1, g2, _⟩ := npMul_ok (X := A) (Y := B) (B := P) (by simpa [hA, hB] using hP)
      rw [g1] at h1
      cases h1
      simpa using g2
    · rw [if_pos h0, if_neg (by simp [hA]), if_neg (by rw [hB]; simp [hst]), hr] at h1
      cases h1
      exact hr'
  · ext i j
    rw [matrixOf_joinC, h4, vecMulVec_apply, vectorOf_joinC, vectorOf_joinC]

/-- **C79** `inner(*args, ndim)` adds up the products of the elements, on every plate. -/
theorem C79_inner {args : List (Arr α)} {pls : List (List Nat)} (hne : args ≠ [])
    (hs : args.map (·.shape) = pls.map (· ++ s)) (hP : IsBroadcast pls P) :
    ∃ y, linInner args s.length = .ok y ∧ y.shape = P ∧
      ∀ p ∈ indices P, y.at (coord p) = ∑ i : MultiIndex s, (args.map fun A => vectorOf A p s i).prod := by
  have hpl : pls ≠ [] := by
    rintro rfl
    exact hne (by simpa using hs)
  have hB : IsBroadcast (args.map (·.shape)) (P ++ s) := by
    have h := isBroadcast_append (sss := pls.map fun _ => s) (S := s) hP
      ⟨by simp, by
        obtain ⟨a, ha⟩ := List.exists_mem_of_ne_nil _ hpl
        exact .inr ⟨s, List.mem_map.2 ⟨a, ha, rfl⟩, rfl⟩, by simp, fun k => by
        obtain ⟨a, ha⟩ := List.exists_mem_of_ne_nil _ hpl
        exact .inr ⟨s, List.mem_map.2 ⟨a, ha, rfl⟩, rfl⟩⟩ (by simp) (by simp) hpl
    rw [hs]
    have e : List.zipWith (· ++ ·) pls (pls.map fun _ => s) = pls.map (· ++ s) := by
      rw [List.zipWith_map_right, List.zipWith_self]
    rwa [e] at h
  obtain ⟨y, h1, h2⟩ := C06_sum_axes_partial args (P ++ s) (lastAxes s.length) false hne hB
  obtain ⟨h3, h4⟩ := sumLast_of_reduction (n := s.length) (by simp) hB
    (fun p hp => names_lastAxes (by simp) hp) h2
  have h5 : y.shape = P := by rw [h3]; simp
  refine ⟨y, h1, h5, fun p hp => ?_⟩
  rw [h4 P (coord p) (by rw [h5]; exact ⟨le_rfl, fun _ => .inr rfl⟩) (coord_valid hp)]
  have e : (P ++ s).drop ((P ++ s).length - s.length) = s := by simp
  rw [e, sumOver_multi]
  refine Finset.sum_congr rfl fun i _ => ?_
  simp only [vectorOf_joinC]

/-- **C79** `mvdot(A, b, ndim)` is the product of a matrix and a vector, on every plate. -/
theorem C79_mvdot {A b : Arr α} (hA : A.shape = pa ++ s ++ t) (hb : b.shape = pb ++ t) (hst : s.length = t.length)
    (hP : IsBroadcast [pa, pb] P) :
    ∃ y, linMvdot A b s.length = .ok y ∧ y.shape = P ++ s ∧
      ∀ p ∈ indices P, vectorOf y p s = matrixOf A p s t *ᵥ vectorOf b p t := by
  obtain ⟨b', g1, g2, g3, g4⟩ := addAxes_ok (X := b) (n := t.length) s.length (by rw [hb]; simp)
  have hb' : b'.shape = pb ++ List.replicate s.length 1 ++ t := by
    refine axisLen_ext ?_ fun k => ?_
    · rw [g2, hb]; simp; omega
    · rw [g3, hb, axisLen_append, axisLen_append, axisLen_append, axisLen_append, List.length_replicate]
      by_cases h1 : k < t.length
      · simp [h1]
      · by_cases h2 : k < t.length + s.length
        · have : k - t.length < s.length := by omega
          simp [h1, h2, this, axisLen_replicate_one]
        · have h3 : ¬ k - t.length < s.length := by omega
          have h4 : ¬ k - s.length < t.length := by omega
          have e : k - s.length - t.length = k - t.length - s.length := by omega
          simp [h1, h2, h3, h4, e]
  have hm : linMvdot A b s.length = linInner [A, b'] t.length := by
    unfold linMvdot
    rcases Nat.eq_zero_or_pos s.length with h0 | h0
    · rw [if_neg (by omega)]
      rw [h0] at g1
      have : b' = b := by
        simp only [addAxes, List.range_zero, List.foldlM_nil, pure, Except.pure] at g1
        exact (Except.ok.inj g1).symm
      rw [this, ← hst]
      rfl
    · rw [if_pos h0]
      rw [← hst] at g1 ⊢
      simp only [bind, Except.bind, g1]
  obtain ⟨y, h1, h2, h3⟩ := C79_inner (args := [A, b']) (pls := [pa ++ s, pb ++ List.replicate s.length 1]) (s := t) (P := P ++ s)
    (by simp) (by simp [hA, hb']) (isBroadcast_append₂ hP (isBroadcast_ones s) rfl (by simp))
  refine ⟨y, by rw [hm, h1], h2, fun p hp => ?_⟩
  funext i
  show y.at (coord (p ++ i)) = _
  rw [h3 _ (append_mem_indices hp (multi_mem i))]
  unfold mulVec dotProduct
  refine Finset.sum_congr rfl fun j _ => ?_
  have e : vectorOf b' (p ++ i) t j = vectorOf b p t j := by
    rw [vectorOf_joinC, vectorOf_joinC, g4]
    congr 1
    funext k
    by_cases h1 : k < t.length
    · rw [if_pos h1, joinC_lt _ _ h1, joinC_lt _ _ h1]
    · rw [if_neg h1, joinC_ge _ _ h1, joinC_ge _ _ (by omega), coord_joinC_mem (multi_mem i), joinC_ge _ _ (by omega)]
      congr 1
      omega
  simp only [List.map_cons, List.map_nil, List.prod_cons, List.prod_nil, mul_one, e]
  rfl

/-- **C79** `transpose(X, ndim)` is the transposed matrix on every plate. -/
theorem C79_transpose {X : Arr α} (hX : X.shape = P ++ s ++ t) (hst : s.length = t.length) :
    ∃ Y, linTranspose X s.length = .ok Y ∧ Y.shape = P ++ t ++ s ∧
      ∀ p ∈ indices P, matrixOf Y p t s = (matrixOf X p s t)ᵀ := by
  obtain ⟨Y, h1, h2, h3, h4⟩ := linTranspose_core (X := X) (n := s.length) (by rw [hX]; simp; omega) _ le_rfl
  refine ⟨Y, h1, axisLen_ext ?_ fun k => ?_, fun p _ => ?_⟩
  · rw [h2, hX]; simp; omega
  · rw [h3, hX]
    simp only [axisLen_append, swapBlocks, ← hst]
    by_cases g1 : k < s.length
    · simp [g1]
    · by_cases g2 : k < s.length + s.length
      · have g3 : k - s.length < s.length := by omega
        have g4 : s.length ≤ k := by omega
        simp [g1, g2, g3, g4]
      · have g3 : ¬ k - s.length < s.length := by omega
        simp [g1, g2, g3]
  · ext j i
    rw [transpose_apply, matrixOf_joinC, matrixOf_joinC, h4]
    congr 1
    funext k
    simp only [swapBlocks, ← hst]
    by_cases g1 : k < s.length
    · rw [if_pos g1, joinC_ge _ _ (by omega), joinC_lt _ _ (by omega), joinC_lt _ _ g1, Nat.add_sub_cancel]
    · rw [if_neg g1]
      by_cases g2 : k < s.length + s.length
      · rw [if_pos ⟨by omega, g2⟩, joinC_lt _ _ (by omega), joinC_ge _ _ g1, joinC_lt _ _ (by omega)]
      · rw [if_neg (by omega), joinC_ge _ _ g1, joinC_ge _ _ (by omega), joinC_ge _ _ g1, joinC_ge _ _ (by omega)]

end

/-! ## Diagonals -/

section
variable {P a b s : List Nat}

theorem identityAxes_ok (hs : s ≠ []) : ∃ I, identityAxes s = .ok I ∧ I.shape = s ++ s ∧
    ∀ (p : List Nat), ∀ i ∈ indices s, ∀ j ∈ indices s, I.at (coord (p ++ i ++ j)) = if i = j then 1 else 0 := by
  obtain ⟨I, hI⟩ : ∃ I, npReshape (⟨[s.prod, s.prod], fun c => if c 1 = c 0 then 1 else 0⟩ : Arr ℝ) (s ++ s) = .ok I :=
    ⟨_, by rw [npReshape, if_pos (by simp)]⟩
  refine ⟨I, ?_, (npReshape_get hI).1, fun p i hi j hj => ?_⟩
  · unfold identityAxes prodSize
    rw [if_neg hs]
    exact hI
  · have hsh := (npReshape_get hI).1
    have e : I.at (coord (p ++ i ++ j)) = I.get (coord (i ++ j)) := by
      have hij := append_mem_indices hi hj
      rw [← Arr.at_of_valid I (by rw [hsh]; exact coord_valid hij)]
      apply I.at_congr
      intro k hk
      have hk' : k < (i ++ j).length := by
        by_contra h
        refine hk (axisLen_of_ge ?_)
        rw [hsh, ← length_of_mem_indices hij]
        omega
      rw [List.append_assoc, coord_append', if_pos hk']
    rw [e, npReshape_index hI (i := i ++ j) (j := [rowMajor s i, rowMajor s j])]
    · show (if rowMajor s i = rowMajor s j then (1 : ℝ) else 0) = _
      by_cases h : i = j
      · rw [if_pos h, if_pos (by rw [h])]
      · rw [if_neg h, if_neg fun h' => h (rowMajor_inj hi hj h')]
    · rw [List.length_append, List.length_append, length_of_mem_indices hi, length_of_mem_indices hj]
    · exact mem_indices_cons.2 ⟨rowMajor_lt hi, mem_indices_cons.2 ⟨rowMajor_lt hj, by simp [indices]⟩⟩
    · rw [rowMajor_append (length_of_mem_indices hi)]
      simp [rowMajor]

theorem atleastAxes_of_le {X : Arr ℝ} {d : Nat} (h : d ≤ X.shape.length) : atleastAxes X d = X := by
  unfold atleastAxes
  rw [Nat.sub_eq_zero_of_le h]
  rfl

/-- **C79** `diag(X, ndim)` is the diagonal matrix with the elements of `X`, on every plate. -/
theorem C79_diag {X : Arr ℝ} (hX : X.shape = P ++ s) :
    ∃ Y, diagAxes X s.length = .ok Y ∧ Y.shape = P ++ s ++ s ∧
      ∀ p ∈ indices P, matrixOf Y p s s = diagonal (vectorOf X p s) := by
  have hat : atleastAxes X s.length = X := atleastAxes_of_le (by rw [hX]; simp)
  unfold diagAxes
  simp only [hat]
  rcases eq_or_ne s [] with rfl | hs
  · refine ⟨X, by simp [pure, Except.pure], by simpa using hX, fun p _ => ?_⟩
    ext i j
    obtain rfl : i = j := Subsingleton.elim _ _
    rw [diagonal_apply_eq, matrixOf_joinC, vectorOf_joinC]
    rfl
  · have hl : 0 < s.length := List.length_pos_iff.2 hs
    obtain ⟨I, h1, h2, h3⟩ := identityAxes_ok hs
    obtain ⟨g1, g2, g3⟩ := npInsertAxes_ok (X := X) (n := 0) (num := s.length) (by omega)
    have e1 : (npInsertAxes X 0 s.length).shape = P ++ s ++ List.replicate s.length 1 := by
      show X.shape.take (X.shape.length - 0) ++ _ ++ X.shape.drop (X.shape.length - 0) = _
      rw [Nat.sub_zero, List.take_length, List.drop_length, hX, List.append_nil]
    obtain ⟨Y, m1, m2, m3⟩ := npMul_ok (X := I) (Y := npInsertAxes X 0 s.length) (B := P ++ s ++ s) (by
      rw [h2, e1]
      refine isBroadcast_append₂ (pa := s) (pb := P ++ s) (P := P ++ s) ⟨by simp, .inr ⟨_, by simp, rfl⟩, ?_, fun _ => .inr ⟨_, by simp, rfl⟩⟩
        (isBroadcast_ones s) rfl (by simp)
      intro k r hr
      simp only [List.mem_cons, List.not_mem_nil, or_false] at hr
      rcases hr with rfl | rfl
      · rw [axisLen_append]
        split
        · exact .inr rfl
        · exact .inl (axisLen_of_ge (by omega))
      · exact .inr rfl)
    refine ⟨Y, ?_, m2, fun p _ => ?_⟩
    · rw [if_pos hl, hX, trailing_append]
      simp only [bind, Except.bind, h1]
      exact m1
    · ext i j
      show Y.at (coord (p ++ i ++ j)) = _
      rw [m3, h3 p i (multi_mem i) j (multi_mem j), g3, diagonal_apply]
      have e : X.at (fun k => if k < 0 then coord (p ++ ↑i ++ ↑j) k else coord (p ++ ↑i ++ ↑j) (k + s.length))
          = vectorOf X p s i := by
        show _ = X.at (coord (p ++ i))
        congr 1
        funext k
        rw [if_neg (by omega), coord_joinC_mem (multi_mem j), joinC_ge _ _ (by omega), Nat.add_sub_cancel]
      rw [e]
      by_cases h : i = j
      · rw [if_pos h, if_pos (by rw [h]), one_mul]
      · rw [if_neg h, if_neg fun h' => h (Subtype.ext h'), zero_mul]

/-- the elements of `make_diag` of blocks -/
theorem makeDiagAxes_ok {X : Arr ℝ} (hX : X.shape = P ++ a ++ b ++ b) (ha : a ≠ []) :
    ∃ Y, makeDiagAxes X (a.length + b.length) b.length = .ok Y ∧ Y.shape = P ++ a ++ b ++ a ++ b ∧
      ∀ p ∈ indices P, ∀ i ∈ indices a, ∀ j ∈ indices b, ∀ k ∈ indices a, ∀ l ∈ indices b,
        Y.at (coord (p ++ i ++ j ++ k ++ l)) = if i = k ∧ j = l then X.at (coord (p ++ i ++ j ++ l)) else 0 := by
  have hal : 0 < a.length := List.length_pos_iff.2 ha
  have hne : a ++ b ≠ [] := by simp [ha]
  have hlen : X.shape.length = P.length + a.length + b.length + b.length := by rw [hX]; simp only [List.length_append]
  have t1 : trailingShape X.shape b.length = b := by rw [hX]; exact trailing_append _ _
  have t2 : (trailingShape X.shape (2 * b.length)).take b.length = b := by
    have : trailingShape X.shape (2 * b.length) = b ++ b := by
      rw [hX, List.append_assoc, show 2 * b.length = (b ++ b).length by simp; omega]
      exact trailing_append _ _
    rw [this]; simp
  have t3 : (trailingShape X.shape (b.length + (a.length + b.length))).take (a.length + b.length) = a ++ b := by
    have : trailingShape X.shape (b.length + (a.length + b.length)) = a ++ b ++ b := by
      rw [hX, show P ++ a ++ b ++ b = P ++ (a ++ b ++ b) by simp, show b.length + (a.length + b.length) = (a ++ b ++ b).length by simp; omega]
      exact trailing_append _ _
    rw [this, show a.length + b.length = (a ++ b).length by simp, List.take_left']
    rfl
  have hat : atleastAxes X (a.length + b.length + b.length) = X := atleastAxes_of_le (by omega)
  obtain ⟨I, h1, h2, h3⟩ := identityAxes_ok hne
  obtain ⟨g1, g2, g3⟩ := npInsertAxes_ok (X := X) (n := b.length) (num := a.length) (by omega)
  have e1 : (npInsertAxes X b.length a.length).shape = P ++ a ++ b ++ List.replicate a.length 1 ++ b := by
    show X.shape.take (X.shape.length - b.length) ++ _ ++ X.shape.drop (X.shape.length - b.length) = _
    have := congrArg (X.shape.take (X.shape.length - b.length) ++ List.replicate a.length 1 ++ ·) t1
    refine (this.trans ?_)
    have e : X.shape.take (X.shape.length - b.length) = P ++ a ++ b := by
      rw [hX, List.length_append, Nat.add_sub_cancel, List.take_left']
      rfl
    simp only [e]
  obtain ⟨Y, m1, m2, m3⟩ := npMul_ok (X := I) (Y := npInsertAxes X b.length a.length) (B := P ++ a ++ b ++ a ++ b) (by
    rw [h2, e1, show a ++ b ++ (a ++ b) = a ++ b ++ a ++ b by simp]
    refine isBroadcast_append₂ (isBroadcast_append₂ (P := P ++ a ++ b) ?_ (isBroadcast_ones a) rfl (by simp)) (isBroadcast_self b) rfl rfl
    refine ⟨by simp, .inr ⟨_, by simp, rfl⟩, ?_, fun _ => .inr ⟨_, by simp, rfl⟩⟩
    intro k r hr
    simp only [List.mem_cons, List.not_mem_nil, or_false] at hr
    rcases hr with rfl | rfl
    · rw [List.append_assoc P, axisLen_append P]
      split
      · exact .inr rfl
      · exact .inl (axisLen_of_ge (by omega))
    · exact .inr rfl)
  refine ⟨Y, ?_, m2, fun p hp i hi j hj k hk l hl => ?_⟩
  · unfold makeDiagAxes
    rw [if_neg (by omega), if_neg (by omega), if_neg (by omega), if_neg (by rw [t1, t2]; simp), if_neg (by omega)]
    simp only [hat, t3]
    simp only [bind, Except.bind, h1, pure, Except.pure]
    rw [show a.length + b.length - b.length = a.length by omega]
    exact m1
  · rw [m3, show p ++ i ++ j ++ k ++ l = p ++ (i ++ j) ++ (k ++ l) by simp,
      h3 p _ (append_mem_indices hi hj) _ (append_mem_indices hk hl), g3]
    have e : X.at (fun m => if m < b.length then coord (p ++ (i ++ j) ++ (k ++ l)) m else coord (p ++ (i ++ j) ++ (k ++ l)) (m + a.length))
        = X.at (coord (p ++ i ++ j ++ l)) := by
      congr 1
      funext m
      have e1 : p ++ (i ++ j) ++ (k ++ l) = p ++ i ++ j ++ k ++ l := by simp
      rw [e1, coord_joinC_mem hl, coord_joinC_mem hl]
      by_cases h : m < b.length
      · rw [if_pos h, joinC_lt _ _ h, joinC_lt _ _ h]
      · rw [if_neg h, joinC_ge _ _ h, joinC_ge _ _ (by omega), coord_joinC_mem hk, joinC_ge _ _ (by omega)]
        congr 1
        omega
    rw [e]
    have hiff : i ++ j = k ++ l ↔ i = k ∧ j = l :=
      ⟨fun h => List.append_inj h (by rw [length_of_mem_indices hi, length_of_mem_indices hk]), fun h => by rw [h.1, h.2]⟩
    simp only [hiff]
    split <;> simp

/-- **C79** `make_diag(X, ndim)` does what `diag` does. -/
theorem C79_make_diag {X : Arr ℝ} (hX : X.shape = P ++ s) :
    ∃ Y, makeDiagAxes X s.length 0 = .ok Y ∧ Y.shape = P ++ s ++ s ∧
      ∀ p ∈ indices P, matrixOf Y p s s = diagonal (vectorOf X p s) := by
  rcases eq_or_ne s [] with rfl | hs
  · refine ⟨X, by simp [makeDiagAxes, pure, Except.pure], by simpa using hX, fun p _ => ?_⟩
    ext i j
    obtain rfl : i = j := Subsingleton.elim _ _
    rw [diagonal_apply_eq, matrixOf_joinC, vectorOf_joinC]
    rfl
  · obtain ⟨Y, h1, h2, h3⟩ := makeDiagAxes_ok (P := P) (a := s) (b := []) (by simpa using hX) hs
    refine ⟨Y, by simpa using h1, by simpa using h2, fun p hp => ?_⟩
    ext i j
    have := h3 p hp i (multi_mem i) [] (by simp [indices]) j (multi_mem j) [] (by simp [indices])
    simp only [List.append_nil, and_true] at this
    show Y.at (coord (p ++ i ++ j)) = _
    rw [this, diagonal_apply]
    by_cases h : i = j
    · rw [if_pos h, if_pos (by rw [h])]
      rfl
    · rw [if_neg h, if_neg fun h' => h (Subtype.ext h')]

theorem map_pieces (L : List Nat) (n d t : Nat) (h : L.length = n + d + t + t) :
    (getDiagLabels n d t).map (fun k => L.getD k 0)
      = L.take n ++ (L.drop n).take d ++ (L.drop (n + d)).take t ++ (L.drop n).take d ++ L.drop (n + d + t) := by
  have e : (List.range (n + d + t + t)).map (fun k => L.getD k 0) = L := by
    rw [← h]
    apply List.ext_getElem
    · simp
    · intro i h1 h2
      simp [List.getD_eq_getElem?_getD, List.getElem?_eq_getElem h2]
  unfold getDiagLabels
  simp only [List.map_append, List.map_take, List.map_drop, e]

theorem map_labels (p i j l : List Nat) (h : l.length = j.length) :
    (getDiagLabels p.length i.length j.length).map (fun k => (p ++ i ++ j ++ l).getD k 0) = p ++ (i ++ j) ++ (i ++ l) := by
  rw [map_pieces _ _ _ _ (by simp only [List.length_append, h])]
  have e0 : p ++ i ++ j ++ l = p ++ (i ++ (j ++ l)) := by simp
  rw [e0, List.take_left' rfl, List.drop_left' rfl, List.take_left' rfl, ← List.drop_drop, ← List.drop_drop, ← List.drop_drop,
    List.drop_left' rfl, List.drop_left' rfl, List.take_left' rfl, List.drop_left' rfl]
  simp

/-- **C79** `get_diag(X, ndim, ndim_to)` takes the diagonal of the first axes and keeps the blocks of the last `ndim_to`. -/
theorem C79_get_diag {X : Arr ℝ} (hX : X.shape = P ++ (a ++ b) ++ (a ++ b)) :
    ∃ Y, getDiagAxes X (a.length + b.length) b.length = .ok Y ∧ Y.shape = P ++ a ++ b ++ b ∧
      ∀ p ∈ indices P, ∀ i ∈ indices a, ∀ j ∈ indices b, ∀ l ∈ indices b,
        Y.at (coord (p ++ i ++ j ++ l)) = X.at (coord (p ++ (i ++ j) ++ (i ++ l))) := by
  have hlen : X.shape.length = P.length + (a.length + b.length) + (a.length + b.length) := by rw [hX]; simp only [List.length_append]
  unfold getDiagAxes
  rw [if_neg (by omega)]
  rcases eq_or_ne a [] with rfl | ha
  · refine ⟨X, ?_, by simpa using hX, fun p _ i hi j _ l _ => by rw [mem_indices_nil.1 hi]; simp⟩
    by_cases hb : b = []
    · simp [hb, pure, Except.pure]
    · have t1 : trailingShape X.shape b.length = b := by rw [hX]; exact trailing_append _ _
      have t2 : (trailingShape X.shape (2 * b.length)).take b.length = b := by
        have : trailingShape X.shape (2 * b.length) = b ++ b := by
          rw [hX, List.append_assoc, show 2 * b.length = (b ++ b).length by simp; omega]
          exact trailing_append _ _
        rw [this]; simp
      have hbl : 0 < b.length := List.length_pos_iff.2 hb
      simp only [List.length_nil, Nat.zero_add] at hlen ⊢
      rw [if_neg (by omega), if_neg (by omega), if_neg (by rw [t1, t2]; simp), if_pos trivial]
      rfl
  · have hal : 0 < a.length := List.length_pos_iff.2 ha
    have hl : (a ++ b).length = a.length + b.length := by simp
    have t1 : trailingShape X.shape (a.length + b.length) = a ++ b := by rw [hX, ← hl]; exact trailing_append _ _
    have t2 : (trailingShape X.shape (2 * (a.length + b.length))).take (a.length + b.length) = a ++ b := by
      have : trailingShape X.shape (2 * (a.length + b.length)) = (a ++ b) ++ (a ++ b) := by
        rw [hX, List.append_assoc, show 2 * (a.length + b.length) = ((a ++ b) ++ (a ++ b)).length by simp; omega]
        exact trailing_append _ _
      rw [this, ← hl, List.take_left']
      rfl
    rw [if_neg (by omega), if_neg (by omega), if_neg (by rw [t1, t2]; simp), if_neg (by omega)]
    have n1 : X.shape.length - 2 * (a.length + b.length) = P.length := by omega
    have n2 : a.length + b.length - b.length = a.length := by omega
    have n3 : X.shape.length - (a.length + b.length) + b.length = P.length + a.length + b.length + b.length := by omega
    rw [n1, n2, n3]
    set N := P.length + a.length + b.length + b.length with hN
    set S := P ++ a ++ b ++ b with hS
    set lab := getDiagLabels P.length a.length b.length with hlab
    have hmapS : lab.map (fun k => S.getD k 0) = X.shape := by
      rw [hlab, hX, hS, map_labels _ _ _ _ rfl]
    have hmem : ∀ k, k ∈ lab ↔ k < N := by
      intro k
      have hr : List.range N = (List.range N).take P.length ++ ((List.range N).drop P.length).take a.length
          ++ ((List.range N).drop (P.length + a.length)).take b.length ++ (List.range N).drop (P.length + a.length + b.length) := by
        conv_lhs => rw [← List.take_append_drop P.length (List.range N)]
        rw [List.append_assoc, List.append_assoc]
        congr 1
        conv_lhs => rw [← List.take_append_drop a.length (List.drop P.length (List.range N))]
        rw [List.drop_drop]
        congr 1
        conv_lhs => rw [← List.take_append_drop b.length (List.drop (P.length + a.length) (List.range N))]
        rw [List.drop_drop]
      rw [← List.mem_range, hr, hlab]
      simp only [getDiagLabels, ← hN, List.mem_append]
      tauto
    have hll : lab.length = X.shape.length := by rw [← hmapS, List.length_map]
    obtain ⟨y, h1, h2, h3⟩ := npEinsum_keyed [(X, lab)] (List.range N) (fun k => k) (fun k => S.getD k 0) []
      (fun _ _ _ _ h => h) (by simp [hll]) (by
        intro op hop q hq
        obtain rfl := List.mem_singleton.1 hop
        simp only [← hmapS] at hq
        rw [List.zip_map_right] at hq
        obtain ⟨⟨x, x'⟩, hx, rfl⟩ := List.mem_map.1 hq
        right
        have hx' : x = x' := by
          obtain ⟨n, hn, e⟩ := List.getElem_of_mem hx
          rw [List.getElem_zip] at e
          cases e
          rfl
        simp [hx']) (by
        rintro k ⟨op, hop, hk⟩
        obtain rfl := List.mem_singleton.1 hop
        refine .inr ⟨_, hop, ?_⟩
        simp only at hk ⊢
        rw [← hmapS]
        obtain ⟨n, hn, rfl⟩ := List.getElem_of_mem hk
        rw [List.mem_iff_getElem]
        exact ⟨n, by simpa using hn, by simp⟩)
      List.nodup_range (fun k hk => ⟨_, List.mem_singleton.2 rfl, (hmem k).2 (List.mem_range.1 hk)⟩) List.nodup_nil (by
        intro k
        simp only [List.not_mem_nil, List.mem_singleton, exists_eq_left, List.mem_range, false_iff, not_and, not_not]
        exact (hmem k).1)
    have hSh : y.shape = S := by
      rw [h2]
      apply List.ext_getElem
      · simp [hS, hN]; omega
      · intro i g1 g2
        simp [List.getD_eq_getElem?_getD, List.getElem?_eq_getElem g2]
    refine ⟨y, by simpa using h1, hSh, fun p hp i hi j hj l hl => ?_⟩
    have hm : p ++ i ++ j ++ l ∈ indices S :=
      append_mem_indices (append_mem_indices (append_mem_indices hp hi) hj) hl
    have hpl := length_of_mem_indices hp
    have hil := length_of_mem_indices hi
    have hjl := length_of_mem_indices hj
    have hll' := length_of_mem_indices hl
    rw [Arr.at_of_valid y (by rw [hSh]; exact coord_valid hm),
      h3 _ (fun k => (p ++ i ++ j ++ l).getD k 0) (by
        intro k hk
        have hk' := List.mem_range.1 hk
        have hNl : (p ++ i ++ j ++ l).length = N := by simp only [List.length_append, hN, hpl, hil, hjl, hll']
        have ei : (List.range N).idxOf k = k := by
          have := (List.nodup_range (n := N)).idxOf_getElem k (by simpa using hk')
          simpa using this
        rw [ei, List.length_range, coord_getD _ _ (by omega), hNl]
        congr 1
        omega)]
    simp only [List.map_nil, sumKeys, List.map_cons, List.prod_cons, List.prod_nil, mul_one]
    rw [hlab, ← hpl, ← hil, ← hjl, map_labels _ _ _ _ (by rw [hjl, hll'])]

/-- **C79** `get_diag(X, ndim)` is the diagonal of the matrix, on every plate. -/
theorem C79_get_diag_all {X : Arr ℝ} (hX : X.shape = P ++ s ++ s) :
    ∃ Y, getDiagAxes X s.length 0 = .ok Y ∧ Y.shape = P ++ s ∧
      ∀ p ∈ indices P, vectorOf Y p s = (matrixOf X p s s).diag := by
  obtain ⟨Y, h1, h2, h3⟩ := C79_get_diag (P := P) (a := s) (b := []) (by simpa using hX)
  refine ⟨Y, by simpa using h1, by simpa using h2, fun p hp => ?_⟩
  funext i
  have := h3 p hp i (multi_mem i) [] (by simp [indices]) [] (by simp [indices])
  simp only [List.append_nil] at this
  exact this

end

/-! ## Matrix products -/

section
variable {pa pb P s t : List Nat} {m k n : Nat}

theorem sum_single (K : Nat) (f : List Nat → ℝ) : ∑ j : MultiIndex [K], f j = ∑ k ∈ Finset.range K, f [k] := by
  rw [Finset.sum_coe_sort (indices [K]).toFinset f, List.sum_toFinset _ (indices_nodup _)]
  have e : indices [K] = (List.range K).map fun k => [k] := by
    simp [indices, List.flatMap_singleton']
    rw [← List.map_eq_flatMap]
  rw [e, List.map_map, Finset.sum_range, ← List.sum_ofFn]
  congr 1
  apply List.ext_getElem <;> simp

theorem mem_single (i : MultiIndex [n]) : ∃ a < n, i.1 = [a] := by
  obtain ⟨a, j, h1, h2, h3⟩ := mem_indices_cons'.1 (multi_mem i)
  rw [mem_indices_nil.1 h3] at h1
  exact ⟨a, h2, h1⟩

/-- the index `a` of an axis of length `n` -/
def singleIx (a : Nat) (h : a < n) : MultiIndex [n] :=
  ⟨[a], List.mem_toFinset.2 (mem_indices_cons.2 ⟨h, by simp [indices]⟩)⟩

theorem coord_safeIndices {p : List Nat} (hp : p ∈ indices P) (h : BroadcastsTo pa P) :
    coord (safeIndices p pa) = restrict pa (coord p) := by
  have hl := length_of_mem_indices hp
  have hm : min p.length pa.length = pa.length := by have := h.1; omega
  unfold safeIndices
  simp only [hm, Nat.sub_self, List.drop_zero]
  funext j
  unfold restrict
  have hv := coord_valid hp j
  by_cases hj : j < pa.length
  · have e1 : (List.zipWith (fun i d => min i (d - 1)) (p.drop (p.length - pa.length)) pa).length = pa.length := by
      simp; have := h.1; omega
    rw [coord_getD _ _ (by omega), e1, List.getD_eq_getElem?_getD, List.getElem?_eq_getElem (by omega)]
    simp only [List.getElem_zipWith, List.getElem_drop, Option.getD_some]
    have e2 : axisLen pa j = pa[pa.length - 1 - j]'(by omega) := by
      have := axisLen_eq_getElem (r := pa) (j := pa.length - 1 - j) (by omega)
      rwa [show pa.length - 1 - (pa.length - 1 - j) = j by omega] at this
    have e3 : coord p j = p[p.length - pa.length + (pa.length - 1 - j)]'(by have := h.1; omega) := by
      rw [coord_getD _ _ (by have := h.1; omega), List.getD_eq_getElem?_getD, List.getElem?_eq_getElem (by have := h.1; omega)]
      simp only [Option.getD_some]
      congr 1
      have := h.1
      omega
    rw [← e2, ← e3]
    split_ifs with h1
    · omega
    · rcases h.2 j with h2 | h2
      · exact absurd h2 h1
      · omega
  · rw [coord_ge _ _ (by simp; omega), if_pos (axisLen_of_ge (by omega))]

/-- one element of the product of the matrices on a plate -/
theorem dotAt_eq {A B : Arr ℝ} (hA : A.shape = pa ++ [m, k]) (hB : B.shape = pb ++ [k, n]) (ha : BroadcastsTo pa P)
    (hb : BroadcastsTo pb P) {p : List Nat} (hp : p ∈ indices P) (i : MultiIndex [m]) (j : MultiIndex [n]) :
    dotAt A B (safeIndices p pa) (safeIndices p pb) (i.1.headD 0) (j.1.headD 0)
      = (matrixOf A p [m] [k] * matrixOf B p [k] [n] : Matrix _ _ ℝ) i j := by
  obtain ⟨x, hx, ex⟩ := mem_single i
  obtain ⟨y, hy, ey⟩ := mem_single j
  rw [mul_apply]
  have e : ∀ l : MultiIndex [k], matrixOf A p [m] [k] i l * matrixOf B p [k] [n] l j
      = (fun q : List Nat => A.at (coord (p ++ i ++ q)) * B.at (coord (p ++ q ++ j))) l := fun l => rfl
  rw [Finset.sum_congr rfl fun l _ => e l,
    sum_single k fun q : List Nat => A.at (coord (p ++ i ++ q)) * B.at (coord (p ++ q ++ j))]
  unfold dotAt
  have e0 : axisLen A.shape 0 = k := by rw [hA]; simp [axisLen]
  rw [e0]
  refine Finset.sum_congr rfl fun l hl => ?_
  have hl' := Finset.mem_range.1 hl
  rw [ex, ey, matCoord_coord, matCoord_coord]
  have hA' : A.at (coord (p ++ [x] ++ [l])) = A.get (coord (safeIndices p pa ++ [x, l])) := by
    unfold Arr.at
    rw [hA, List.append_assoc]
    congr 1
    exact restrict_append (i := [x, l]) (mem_indices_cons.2 ⟨hx, mem_indices_cons.2 ⟨hl', by simp [indices]⟩⟩) (coord_safeIndices hp ha)
  have hB' : B.at (coord (p ++ [l] ++ [y])) = B.get (coord (safeIndices p pb ++ [l, y])) := by
    unfold Arr.at
    rw [hB, List.append_assoc]
    congr 1
    exact restrict_append (i := [l, y]) (mem_indices_cons.2 ⟨hl', mem_indices_cons.2 ⟨hy, by simp [indices]⟩⟩) (coord_safeIndices hp hb)
  rw [hA', hB']
  rfl

theorem dotLoop_ok {A B : Arr ℝ} (hk : axisLen A.shape 0 = axisLen B.shape 1) {p : List Nat} (x y : Nat) (L : List (List Nat)) :
    ∀ Y0 : Arr ℝ, (∀ i ∈ L, i.length = p.length) → ∃ Y, L.foldlM (dotStep A B) Y0 = .ok Y ∧ Y.shape = Y0.shape ∧
      (p ∈ L → Y.get (coord (p ++ [x, y]))
        = dotAt A B (safeIndices p (A.shape.take (A.shape.length - 2))) (safeIndices p (B.shape.take (B.shape.length - 2))) x y) ∧
      (p ∉ L → Y.get (coord (p ++ [x, y])) = Y0.get (coord (p ++ [x, y]))) := by
  induction L with
  | nil => exact fun Y0 _ => ⟨Y0, rfl, rfl, by simp, fun _ => rfl⟩
  | cons i L ih =>
    intro Y0 hL
    have hi := hL i (by simp)
    obtain ⟨Y, h1, h2, h3, h4⟩ := ih
      ⟨Y0.shape, fun c => if ∀ k < i.length, c (k + 2) = coord i k
        then dotAt A B (safeIndices i (A.shape.take (A.shape.length - 2)))
          (safeIndices i (B.shape.take (B.shape.length - 2))) (c 1) (c 0)
        else Y0.get c⟩ (fun j hj => hL j (by simp [hj]))
    have hc0 : coord (p ++ [x, y]) 0 = y := by rw [coord_append']; simp [coord]
    have hc1 : coord (p ++ [x, y]) 1 = x := by rw [coord_append']; simp [coord]
    have hc2 : ∀ k, coord (p ++ [x, y]) (k + 2) = coord p k := fun k => by rw [coord_append']; simp
    have hiff : (∀ k < i.length, coord (p ++ [x, y]) (k + 2) = coord i k) ↔ i = p := by
      constructor
      · intro h
        apply List.ext_getElem hi
        intro k g1 g2
        have := h (i.length - 1 - k) (by omega)
        rw [hc2, coord_getD _ _ (by omega), coord_getD _ _ (by omega), List.getD_eq_getElem?_getD, List.getD_eq_getElem?_getD,
          List.getElem?_eq_getElem (by omega), List.getElem?_eq_getElem (by omega)] at this
        simp only [Option.getD_some] at this
        have e : i.length - 1 - (i.length - 1 - k) = k := by omega
        have e' : p.length - 1 - (i.length - 1 - k) = k := by omega
        simp only [e, e'] at this
        exact this.symm
      · rintro rfl k _
        exact hc2 k
    refine ⟨Y, ?_, h2, fun hp => ?_, fun hp => ?_⟩
    · rw [List.foldlM_cons]
      unfold dotStep
      rw [if_neg (by simpa using hk)]
      exact h1
    · by_cases hpL : p ∈ L
      · exact h3 hpL
      · have hpi : i = p := by
          rcases List.mem_cons.1 hp with h | h
          · exact h.symm
          · exact absurd h hpL
        rw [h4 hpL]
        simp only [hiff.2 hpi, implies_true, if_true]
        rw [if_pos (hiff.2 hpi), hc0, hc1, hpi]
    · rw [h4 fun h => hp (by simp [h])]
      simp only
      rw [if_neg fun h => hp (by simp [hiff.1 h])]

/-- **C79** `_dot(A, B)` is the product of the matrices on every plate. -/
theorem C79_dot_two {A B : Arr ℝ} (hA : A.shape = pa ++ [m, k]) (hB : B.shape = pb ++ [k, n]) (hP : IsBroadcast [pa, pb] P) :
    ∃ Y, dotTwo A B = .ok Y ∧ Y.shape = P ++ [m, n] ∧
      ∀ p ∈ indices P, matrixOf Y p [m] [n] = matrixOf A p [m] [k] * matrixOf B p [k] [n] := by
  have tA : A.shape.take (A.shape.length - 2) = pa := by rw [hA]; simp
  have tB : B.shape.take (B.shape.length - 2) = pb := by rw [hB]; simp
  have a0 : axisLen A.shape 0 = k := by rw [hA]; simp [axisLen]
  have a1 : axisLen A.shape 1 = m := by rw [hA]; simp [axisLen]
  have b0 : axisLen B.shape 0 = n := by rw [hB]; simp [axisLen]
  have b1 : axisLen B.shape 1 = k := by rw [hB]; simp [axisLen]
  have ha : BroadcastsTo pa P := IsBroadcast.to hP (by simp)
  have hb : BroadcastsTo pb P := IsBroadcast.to hP (by simp)
  have fin : ∀ Y : Arr ℝ, Y.shape = P ++ [m, n] → (∀ p ∈ indices P, ∀ x y, Y.get (coord (p ++ [x, y]))
      = dotAt A B (safeIndices p pa) (safeIndices p pb) x y) →
      ∀ p ∈ indices P, matrixOf Y p [m] [n] = matrixOf A p [m] [k] * matrixOf B p [k] [n] := by
    intro Y hY h p hp
    ext i j
    obtain ⟨x, hx, ex⟩ := mem_single i
    obtain ⟨y, hy, ey⟩ := mem_single j
    rw [← dotAt_eq hA hB ha hb hp, matrixOf_apply (plates := P) (by simp [hY]) hp, ex, ey, List.append_assoc]
    exact h p hp x y
  unfold dotTwo
  rw [if_neg (by rw [hA]; simp)]
  simp only [tA, tB, (broadcastedShape_ok _ _).2 hP, bind, Except.bind, pure, Except.pure, a1, b0]
  by_cases h0 : P = []
  · subst h0
    rw [if_pos rfl, if_neg (by rw [a0, b1]; simp)]
    refine ⟨_, rfl, rfl, fin _ rfl fun p hp x y => ?_⟩
    obtain rfl := mem_indices_nil.1 hp
    have e1 : pa = [] := List.length_eq_zero_iff.1 (by simpa using ha.1)
    have e2 : pb = [] := List.length_eq_zero_iff.1 (by simpa using hb.1)
    subst e1 e2
    rfl
  · rw [if_neg h0, nestedIterator_eq]
    have hk : axisLen A.shape 0 = axisLen B.shape 1 := by rw [a0, b1]
    obtain ⟨Y, h1, h2, _, _⟩ := dotLoop_ok (A := A) (B := B) hk (p := List.replicate P.length 0) 0 0 (indices P)
      ⟨P ++ [m, n], fun _ => 0⟩ (fun i hi => by rw [length_of_mem_indices hi]; simp)
    refine ⟨Y, h1, h2, fin Y h2 fun p hp x y => ?_⟩
    obtain ⟨Y', g1, _, g3, _⟩ := dotLoop_ok (A := A) (B := B) hk (p := p) x y (indices P)
      ⟨P ++ [m, n], fun _ => 0⟩ (fun i hi => by rw [length_of_mem_indices hi, length_of_mem_indices hp])
    rw [h1] at g1
    cases g1
    rw [g3 hp, tA, tB]

/-- **C79** Matrices whose inner lengths differ are rejected. -/
theorem C79_dot_two_raises {A B : Arr ℝ} {k' : Nat} (hA : A.shape = pa ++ [m, k]) (hB : B.shape = pb ++ [k', n]) (hk : k ≠ k') :
    dotAll [A, B] = .error .valueError := by
  have a0 : axisLen A.shape 0 = k := by rw [hA]; simp [axisLen]
  have b1 : axisLen B.shape 1 = k' := by rw [hB]; simp [axisLen]
  simp only [dotAll, List.foldlM_cons, List.foldlM_nil, dotRound]
  rw [if_neg (by rw [hA, hB]; simp), if_pos (by rw [a0, b1]; exact hk)]
  rfl

/-- arrays of matrices that can be multiplied, with their plates -/
inductive Chain : List (Arr ℝ) → List (List Nat) → Nat → Nat → Prop
  | one {A : Arr ℝ} {pl : List Nat} {m n : Nat} (h : A.shape = pl ++ [m, n]) : Chain [A] [pl] m n
  | snoc {As : List (Arr ℝ)} {pls : List (List Nat)} {m k n : Nat} {B : Arr ℝ} {pl : List Nat} (h : Chain As pls m k)
      (hB : B.shape = pl ++ [k, n]) : Chain (As ++ [B]) (pls ++ [pl]) m n

/-- the product of the matrices on plate `p` -/
inductive IsProductAt (p : List Nat) : List (Arr ℝ) → (m n : Nat) → Matrix (MultiIndex [m]) (MultiIndex [n]) ℝ → Prop
  | one (A : Arr ℝ) (m n : Nat) : IsProductAt p [A] m n (matrixOf A p [m] [n])
  | snoc {As : List (Arr ℝ)} {m k : Nat} {M : Matrix (MultiIndex [m]) (MultiIndex [k]) ℝ} (h : IsProductAt p As m k M) (B : Arr ℝ) (n : Nat) :
      IsProductAt p (As ++ [B]) m n (M * matrixOf B p [k] [n])

theorem Chain.length_pos {As : List (Arr ℝ)} {pls : List (List Nat)} (h : Chain As pls m n) : As ≠ [] := by
  cases h <;> simp

theorem dotAll_snoc {As : List (Arr ℝ)} {B Y : Arr ℝ} (hne : As ≠ []) (h : dotAll As = .ok Y) :
    dotAll (As ++ [B]) = dotRound Y B := by
  cases As with
  | nil => exact absurd rfl hne
  | cons X Xs =>
    simp only [dotAll, List.cons_append] at h ⊢
    rw [List.foldlM_append, h]
    show dotRound Y B >>= pure = _
    rw [bind_pure]

/-- a wider set of plates reads the same matrices -/
theorem matrixOf_wider {α : Type} {X : Arr α} {Q p q : List Nat} (hX : X.shape = pa ++ s ++ t) (ha : BroadcastsTo pa Q)
    (hq : coord q = restrict Q (coord p)) : matrixOf X p s t = matrixOf X q s t := by
  ext i j
  rw [matrixOf_joinC, matrixOf_joinC]
  apply X.at_congr
  intro l hl
  by_cases h1 : l < t.length
  · rw [joinC_lt _ _ h1, joinC_lt _ _ h1]
  · rw [joinC_ge _ _ h1, joinC_ge _ _ h1]
    by_cases h2 : l - t.length < s.length
    · rw [joinC_lt _ _ h2, joinC_lt _ _ h2]
    · rw [joinC_ge _ _ h2, joinC_ge _ _ h2, hq]
      unfold restrict
      rw [if_neg]
      intro h3
      apply hl
      rw [hX, axisLen_append, if_neg h1, axisLen_append, if_neg h2]
      rcases ha.2 (l - t.length - s.length) with h4 | h4
      · exact h4
      · rw [h4, h3]

/-- **C79** `dot(*arrays)` is the product of the matrices, from left to right, on every plate. -/
theorem C79_dot {As : List (Arr ℝ)} {pls : List (List Nat)} (h : Chain As pls m n) (hP : IsBroadcast pls P) :
    ∃ Y, dotAll As = .ok Y ∧ Y.shape = P ++ [m, n] ∧ ∀ p ∈ indices P, IsProductAt p As m n (matrixOf Y p [m] [n]) := by
  suffices H : ∀ {m n : Nat} {P : List Nat}, Chain As pls m n → IsBroadcast pls P → ∃ Y, dotAll As = .ok Y ∧ Y.shape = P ++ [m, n] ∧
      ∀ P' p, BroadcastsTo P P' → p ∈ indices P' → IsProductAt p As m n (matrixOf Y p [m] [n]) by
    obtain ⟨Y, h1, h2, h3⟩ := H h hP
    exact ⟨Y, h1, h2, fun p hp => h3 P p ⟨le_rfl, fun _ => .inr rfl⟩ hp⟩
  clear h hP
  intro m n P h hP
  induction h generalizing P with
  | @one A pl m n hA =>
    refine ⟨A, rfl, ?_, fun P' p _ _ => .one A m n⟩
    have : P = pl := isBroadcast_unique hP ⟨by simp, .inr ⟨pl, by simp, rfl⟩, by simp, fun _ => .inr ⟨pl, by simp, rfl⟩⟩
    rw [this, hA]
  | @snoc As pls m k n B pl hc hB ih =>
    have hg := C02_broadcasted_shape_group pls [pl]
    rw [(broadcastedShape_ok _ _).2 hP] at hg
    cases hQ : broadcastedShape pls with
    | error e => rw [hQ] at hg; cases hg
    | ok Q =>
      rw [hQ] at hg
      have hQP : IsBroadcast [Q, pl] P := (broadcastedShape_ok _ _).1 hg
      obtain ⟨Y, h1, h2, h3⟩ := ih ((broadcastedShape_ok _ _).1 hQ)
      obtain ⟨Z, g1, g2, g3⟩ := C79_dot_two (A := Y) (B := B) h2 hB hQP
      refine ⟨Z, ?_, g2, fun P' p hPP hp => ?_⟩
      · rw [dotAll_snoc hc.length_pos h1]
        unfold dotRound
        rw [if_neg (by rw [h2, hB]; simp), if_neg (by rw [h2, hB]; simp [axisLen])]
        exact g1
      · obtain ⟨q, hq, hqe⟩ := exists_restrict hPP.2 hp
        have e : matrixOf Z p [m] [n] = matrixOf Y p [m] [k] * matrixOf B p [k] [n] := by
          rw [matrixOf_wider (X := Z) (pa := P) (s := [m]) (t := [n]) (by simp [g2]) ⟨le_rfl, fun _ => .inr rfl⟩ hqe,
            matrixOf_wider (X := Y) (pa := Q) (s := [m]) (t := [k]) (by simp [h2]) (IsBroadcast.to hQP (by simp)) hqe,
            matrixOf_wider (X := B) (pa := pl) (s := [k]) (t := [n]) (by simp [hB]) (IsBroadcast.to hQP (by simp)) hqe]
          exact g3 q hq
        rw [e]
        refine .snoc (h3 P' p ?_ hp) B n
        have hQ1 := IsBroadcast.to hQP (s := Q) (by simp)
        refine ⟨hQ1.1.trans hPP.1, fun l => ?_⟩
        rcases hQ1.2 l with h | h
        · exact .inl h
        · rw [h]; exact hPP.2 l

/-- **C79** The product of nothing is zero, and the product of one array is the array. -/
theorem C79_dot_few (A : Arr ℝ) : dotAll [] = .ok ⟨[], fun _ => 0⟩ ∧ dotAll [A] = .ok A := ⟨rfl, rfl⟩

/-- an index of one axis and its number -/
def singleEquiv (D : Nat) : MultiIndex [D] ≃ Fin D where
  toFun i := ⟨i.1.headD 0, by obtain ⟨a, h, e⟩ := mem_single i; rw [e]; exact h⟩
  invFun a := singleIx a.1 a.2
  left_inv i := by obtain ⟨a, h, e⟩ := mem_single i; apply Subtype.ext; simp [singleIx, e]
  right_inv a := rfl

theorem matrixOf_single {A : Arr ℝ} {p : List Nat} (hA : A.shape = P ++ [m, n]) (hp : p ∈ indices P) (a : Fin m) (b : Fin n) :
    matrixOf A p [m] [n] ((singleEquiv m).symm a) ((singleEquiv n).symm b) = A.get (matCoord a b (coord p)) := by
  rw [matrixOf_apply (plates := P) (by simp [hA]) hp, matCoord_coord, List.append_assoc]
  rfl

theorem matAt_eq {A : Arr ℝ} {p : List Nat} (hA : A.shape = P ++ [n, n]) (hp : p ∈ indices P) :
    matAt A n (coord p) = (matrixOf A p [n] [n]).submatrix (singleEquiv n).symm (singleEquiv n).symm := by
  ext a b
  exact (matrixOf_single hA hp a b).symm

theorem det_matAt {A : Arr ℝ} {p : List Nat} (hA : A.shape = P ++ [n, n]) (hp : p ∈ indices P) :
    (matAt A n (coord p)).det = (matrixOf A p [n] [n]).det := by
  rw [matAt_eq hA hp, det_submatrix_equiv_self]

/-- **C79** `tracedot(A, B)` is the trace of the product of the matrices on every plate. -/
theorem C79_tracedot {A B : Arr ℝ} (hA : A.shape = pa ++ [m, n]) (hB : B.shape = pb ++ [n, m]) (hP : IsBroadcast [pa, pb] P) :
    ∃ Y, traceDot A B = .ok Y ∧ Y.shape = P ∧
      ∀ p ∈ indices P, Y.get (coord p) = (matrixOf A p [m] [n] * matrixOf B p [n] [m] : Matrix _ _ ℝ).trace := by
  have tA : A.shape.take (A.shape.length - 2) = pa := by rw [hA]; simp
  have tB : B.shape.take (B.shape.length - 2) = pb := by rw [hB]; simp
  have a0 : axisLen A.shape 0 = n := by rw [hA]; simp [axisLen]
  have a1 : axisLen A.shape 1 = m := by rw [hA]; simp [axisLen]
  have b0 : axisLen B.shape 0 = m := by rw [hB]; simp [axisLen]
  have b1 : axisLen B.shape 1 = n := by rw [hB]; simp [axisLen]
  have hu : ∀ x : Nat, einsumUnify [x, x] = .ok x := by
    intro x
    unfold einsumUnify
    by_cases h : x = 1 <;> simp [h, bind, Except.bind, pure, Except.pure]
  unfold traceDot
  rw [if_neg (by rw [hA, hB]; simp)]
  simp only [tA, tB, (broadcastedShape_ok _ _).2 hP, bind, Except.bind, pure, Except.pure, a0, a1, b0, b1, hu]
  refine ⟨_, rfl, rfl, fun p hp => ?_⟩
  simp only [trace, diag_apply, mul_apply]
  have e : ∀ i : MultiIndex [m], ∑ l : MultiIndex [n], matrixOf A p [m] [n] i l * matrixOf B p [n] [m] l i
      = (fun q : List Nat => ∑ l ∈ Finset.range n, A.at (coord (p ++ q ++ [l])) * B.at (coord (p ++ [l] ++ q))) i :=
    fun i => sum_single n fun q => A.at (coord (p ++ i ++ q)) * B.at (coord (p ++ q ++ i))
  rw [Finset.sum_congr rfl fun i _ => e i,
    sum_single m fun q : List Nat => ∑ l ∈ Finset.range n, A.at (coord (p ++ q ++ [l])) * B.at (coord (p ++ [l] ++ q))]
  simp only [matCoord_coord, List.append_assoc, List.cons_append, List.nil_append]

/-- **C79** `inv(A, ndim)` is the inverse on every plate for `ndim` 0 and 1. -/
theorem C79_inv {A : Arr ℝ} (hA : A.shape = P ++ s ++ s) (hs : s.length ≤ 1)
    (hdet : ∀ p ∈ indices P, (matrixOf A p s s).det ≠ 0) :
    ∃ V, invAxes A s.length = .ok V ∧ V.shape = P ++ s ++ s ∧
      ∀ p ∈ indices P, matrixOf A p s s * matrixOf V p s s = 1 ∧ matrixOf V p s s * matrixOf A p s s = 1 := by
  suffices H : ∃ V, invAxes A s.length = .ok V ∧ V.shape = P ++ s ++ s ∧
      ∀ p ∈ indices P, matrixOf A p s s * matrixOf V p s s = 1 by
    obtain ⟨V, h1, h2, h3⟩ := H
    exact ⟨V, h1, h2, fun p hp => ⟨h3 p hp, mul_eq_one_comm.1 (h3 p hp)⟩⟩
  match s, hs with
  | [], _ =>
    refine ⟨⟨A.shape, fun c => 1 / A.get c⟩, by simp [invAxes, pure, Except.pure], hA, fun p hp => ?_⟩
    have h := hdet p hp
    rw [det_unique] at h
    ext i j
    rw [Subsingleton.elim i default, Subsingleton.elim j default, mul_apply, Fintype.sum_unique, one_apply_eq]
    rw [matrixOf_apply (plates := P) hA hp] at h ⊢
    rw [matrixOf_apply (plates := P) (by exact hA) hp]
    exact mul_one_div_cancel h
  | [n], _ =>
    have hA' : A.shape = P ++ [n, n] := by simp [hA]
    have tA : A.shape.take (A.shape.length - 2) = P := by rw [hA']; simp
    have a0 : axisLen A.shape 0 = n := by rw [hA']; simp [axisLen]
    have a1 : axisLen A.shape 1 = n := by rw [hA']; simp [axisLen]
    have hl := mapM_ok_of (fun i => npInv (matAt A n (coord i))) (fun i => (matAt A n (coord i))⁻¹) (indices P) fun i hi => by
      unfold npInv
      rw [if_neg (by rw [det_matAt hA' hi]; exact hdet i hi)]
    refine ⟨ofMats P fun p => (matAt A n p)⁻¹, ?_, by simp [ofMats], fun p hp => ?_⟩
    · unfold invAxes
      rw [if_neg (by simp), if_pos (by simp), if_neg (by rw [hA']; simp [axisLen]), tA, a0]
      simp only [npInvAll, hl, bind, Except.bind, pure, Except.pure]
    · have e : matrixOf (ofMats P fun p => (matAt A n p)⁻¹) p [n] [n]
          = ((matAt A n (coord p))⁻¹).submatrix (singleEquiv n) (singleEquiv n) := by
        ext i j
        obtain ⟨a, ha, ea⟩ := mem_single i
        obtain ⟨b, hb, eb⟩ := mem_single j
        rw [matrixOf_apply (plates := P) (by simp [ofMats]) hp, ea, eb, List.append_assoc]
        show Arr.get _ (coord (p ++ [a, b])) = _
        rw [ofMats_get _ ha hb]
        simp only [submatrix_apply]
        have g1 : singleEquiv n i = ⟨a, ha⟩ := Fin.ext (by simp [singleEquiv, ea])
        have g2 : singleEquiv n j = ⟨b, hb⟩ := Fin.ext (by simp [singleEquiv, eb])
        rw [g1, g2]
      have e2 : matrixOf A p [n] [n] = (matAt A n (coord p)).submatrix (singleEquiv n) (singleEquiv n) := by
        rw [matAt_eq hA' hp]
        ext i j
        simp
      rw [e, e2, submatrix_mul_equiv, mul_nonsing_inv, submatrix_one_equiv]
      rw [isUnit_iff_ne_zero, det_matAt hA' hp]
      exact hdet p hp

/-- **C79** A singular matrix on any plate is rejected. -/
theorem C79_inv_raises {A : Arr ℝ} (hA : A.shape = P ++ [n, n]) (hdet : ∃ p ∈ indices P, (matrixOf A p [n] [n]).det = 0) :
    invAxes A 1 = .error .exception := by
  have tA : A.shape.take (A.shape.length - 2) = P := by rw [hA]; simp
  have a0 : axisLen A.shape 0 = n := by rw [hA]; simp [axisLen]
  have a1 : axisLen A.shape 1 = n := by rw [hA]; simp [axisLen]
  have H : ∀ L : List (List Nat), (∀ i ∈ L, i ∈ indices P) → (∃ p ∈ L, (matrixOf A p [n] [n]).det = 0) →
      L.mapM (fun i => npInv (matAt A n (coord i))) = .error .exception := by
    intro L
    induction L with
    | nil => rintro _ ⟨p, hp, _⟩; simp at hp
    | cons i L ih =>
      rintro hL ⟨p, hp, h⟩
      rw [List.mapM_cons]
      unfold npInv
      by_cases h0 : (matAt A n (coord i)).det = 0
      · rw [if_pos h0]; rfl
      · rw [if_neg h0]
        have hpL : p ∈ L := by
          rcases List.mem_cons.1 hp with rfl | h'
          · exact absurd ((det_matAt hA (hL p (by simp))).trans h) h0
          · exact h'
        have := ih (fun j hj => hL j (by simp [hj])) ⟨p, hpL, h⟩
        unfold npInv at this
        simp only [this]
        rfl
  unfold invAxes
  rw [if_neg (by simp), if_pos rfl, if_neg (by rw [hA]; simp [axisLen]), tA, a0]
  simp only [npInvAll, H _ (fun _ h => h) hdet, bind, Except.bind]

/-- **C79** (code differs) The docstring of `inv` promises inverses over several axes; these are not implemented. -/
theorem C79_inv_refuted (A : Arr ℝ) (d : Nat) : invAxes A (d + 2) = .error .notImplemented := by
  unfold invAxes
  rw [if_neg (by omega), if_neg (by omega)]
  rfl

/-- **C79** `mmdot(A, B, ndim)` is the product of the matrices on every plate for `ndim` 0 and 1. -/
theorem C79_mmdot_partial {A B : Arr ℝ} {d : Nat} (hs : s.length = d) (ht : t.length = d) {r : List Nat} (hr : r.length = d) (hd : d ≤ 1)
    (hA : A.shape = pa ++ s ++ t) (hB : B.shape = pb ++ t ++ r) (hP : IsBroadcast [pa, pb] P) :
    ∃ Y, mmDot A B d = .ok Y ∧ Y.shape = P ++ s ++ r ∧
      ∀ p ∈ indices P, matrixOf Y p s r = matrixOf A p s t * matrixOf B p t r := by
  rcases d with _ | _ | d
  · rw [List.length_eq_zero_iff] at hs ht hr
    subst hs ht hr
    simp only [List.append_nil] at hA hB ⊢
    obtain ⟨Y, h1, h2, h3⟩ := npMul_ok (X := A) (Y := B) (by rw [hA, hB]; exact hP)
    refine ⟨Y, h1, h2, fun p hp => ?_⟩
    ext i j
    have ei : i.1 = [] := mem_indices_nil.1 (multi_mem i)
    have ej : j.1 = [] := mem_indices_nil.1 (multi_mem j)
    have e0 : ((default : MultiIndex []).1 : List Nat) = [] := mem_indices_nil.1 (multi_mem _)
    rw [mul_apply, Fintype.sum_unique]
    rw [matrixOf_apply (plates := P) (by simp [h2]) hp]
    show _ = A.at (coord (p ++ i ++ (default : MultiIndex []))) * B.at (coord (p ++ (default : MultiIndex []) ++ j))
    rw [ei, ej, e0, List.append_nil, List.append_nil]
    have := h3 (coord p)
    rwa [Arr.at_of_valid Y (by rw [h2]; exact coord_valid hp)] at this
  · rw [List.length_eq_one_iff] at hs ht hr
    obtain ⟨m, rfl⟩ := hs
    obtain ⟨k, rfl⟩ := ht
    obtain ⟨n, rfl⟩ := hr
    simp only [List.append_assoc, List.cons_append, List.nil_append] at hA hB ⊢
    obtain ⟨Y, h1, h2, h3⟩ := C79_dot_two hA hB hP
    exact ⟨Y, by simpa [mmDot] using h1, h2, h3⟩
  · omega

/-- **C79** (code differs) `mmdot` over two or more axes raises an error. -/
theorem C79_mmdot_refuted (A B : Arr ℝ) (d : Nat) : mmDot A B (d + 2) = .error .exception := by
  unfold mmDot
  rw [if_neg (by omega), if_neg (by omega)]
  rfl

end

/-! ## Log determinants -/

section
variable {P : List Nat} {n : Nat}

theorem det_triangular (f : Nat → Nat → ℝ) (h : ∀ i j, j < i → f i j = 0) :
    (of fun i j : Fin n => f i j).det = ∏ i ∈ Finset.range n, f i i := by
  rw [det_of_isUpperTriangular, Finset.prod_range]
  · rfl
  · intro i j hij
    exact h i j hij

/-- **C79** `logdet_chol(U)` is the log determinant of the matrix that was factorized. -/
theorem C79_logdet_chol {A U : Arr ℝ} (h : IsCholeskyOf A U P [n]) :
    (logdetChol U).shape = P ∧ ∀ p ∈ indices P, (logdetChol U).get (coord p) = Real.log (matrixOf A p [n] [n]).det := by
  have hU : U.shape = P ++ [n, n] := by simp [h.shapeU]
  have hA : A.shape = P ++ [n, n] := by simp [h.shapeA]
  have tU : U.shape.take (U.shape.length - 2) = P := by rw [hU]; simp
  refine ⟨tU, fun p hp => ?_⟩
  have e0 : axisLen U.shape 0 = n := by rw [hU]; simp [axisLen]
  have key : (matrixOf A p [n] [n]).det = (∏ i ∈ Finset.range n, U.get (matCoord i i (coord p))) ^ 2 := by
    rw [← h.eq p hp, det_mul, det_transpose, ← sq]
    congr 1
    have e : (upperOf (matrixOf U p [n] [n])).det = (triu (matAt U n (coord p))).det := by
      rw [← det_submatrix_equiv_self (singleEquiv n).symm]
      congr 1
      ext a b
      have hab : rowMajor [n] ((singleEquiv n).symm a).1 ≤ rowMajor [n] ((singleEquiv n).symm b).1 ↔ a ≤ b := by
        simp [singleEquiv, singleIx, rowMajor]
      simp only [triu, upperOf, submatrix_apply, of_apply, hab, matAt, matrixOf_single hU hp]
    have e' : triu (matAt U n (coord p)) = of fun i j : Fin n => (fun a b => if a ≤ b then U.get (matCoord a b (coord p)) else 0) i.1 j.1 := by
      ext i j
      rfl
    rw [e, e', det_triangular fun a b => if a ≤ b then U.get (matCoord a b (coord p)) else 0]
    · simp
    · intro i j hij
      exact if_neg (by omega)
  show 2 * ∑ i ∈ Finset.range (axisLen U.shape 0), _ = _
  have hpos : ∀ i ∈ Finset.range n, U.get (matCoord i i (coord p)) ≠ 0 := by
    intro i hi
    have := h.pos p hp ((singleEquiv n).symm ⟨i, Finset.mem_range.1 hi⟩)
    rw [matrixOf_single hU hp] at this
    exact this.ne'
  rw [e0, key, Real.log_pow, Real.log_prod hpos]
  norm_num

/-- **C79** `logdet_tri(R)` of one triangular matrix is the logarithm of the absolute value of its determinant. -/
theorem C79_logdet_tri_partial {R : Arr ℝ} (hR : R.shape = [n, n])
    (htri : ∀ i j, j < i → R.get (coord [i, j]) = 0) (hpos : ∀ i < n, R.get (coord [i, i]) ≠ 0) :
    (logdetTri R).shape = [] ∧ (logdetTri R).get (coord []) = Real.log |(matrixOf R [] [n] [n]).det| := by
  refine ⟨rfl, ?_⟩
  have e0 : axisLen R.shape 0 = n := by rw [hR]; simp [axisLen]
  have hp : ([] : List Nat) ∈ indices [] := by simp [indices]
  rw [← det_matAt (P := []) hR hp, matAt, det_triangular (fun i j => R.get (matCoord i j (coord []))), Finset.abs_prod, Real.log_prod]
  · show ((indices (R.shape.take (R.shape.length - 2))).map _).sum = _
    rw [e0, hR]
    simp [indices]
  · intro i hi
    rw [matCoord_coord]
    exact abs_ne_zero.2 (hpos i (Finset.mem_range.1 hi))
  · intro i j hij
    rw [matCoord_coord]
    exact htri i j hij

/-- **C79** (code differs) `logdet_tri` of matrices on plates is one number: the sum over the plates. -/
theorem C79_logdet_tri_refuted {R : Arr ℝ} (hR : R.shape = P ++ [n, n])
    (htri : ∀ p ∈ indices P, ∀ i j, j < i → R.get (coord (p ++ [i, j])) = 0)
    (hpos : ∀ p ∈ indices P, ∀ i < n, R.get (coord (p ++ [i, i])) ≠ 0) :
    (logdetTri R).shape = [] ∧
      (logdetTri R).get (coord []) = ((indices P).map fun p => Real.log |(matrixOf R p [n] [n]).det|).sum := by
  refine ⟨rfl, ?_⟩
  have e0 : axisLen R.shape 0 = n := by rw [hR]; simp [axisLen]
  have tR : R.shape.take (R.shape.length - 2) = P := by rw [hR]; simp
  show ((indices (R.shape.take (R.shape.length - 2))).map _).sum = _
  rw [e0, tR]
  congr 1
  refine List.map_congr_left fun p hp => ?_
  rw [← det_matAt (P := P) hR hp, matAt, det_triangular (fun i j => R.get (matCoord i j (coord p))), Finset.abs_prod, Real.log_prod]
  · intro i hi
    rw [matCoord_coord]
    exact abs_ne_zero.2 (hpos p hp i (Finset.mem_range.1 hi))
  · intro i j hij
    rw [matCoord_coord]
    exact htri p hp i j hij

/-- **C79** `logdet_cov(C, ndim)` is the log determinant on every plate, over any axes. -/
theorem C79_logdet_cov {C : Arr ℝ} {s : List Nat} (hC : C.shape = P ++ s ++ s) (hpd : ∀ p ∈ indices P, (matrixOf C p s s).PosDef) :
    ∃ l, logdetCov C s.length = .ok l ∧ l.shape = P ∧ ∀ p ∈ indices P, l.get (coord p) = Real.log (matrixOf C p s s).det := by
  obtain ⟨U, h1, h2⟩ := C76_chol C P s hC hpd
  obtain ⟨l, g1, g2, g3⟩ := C76_logdet h2
  exact ⟨l, by simp [logdetCov, h1, g1, bind, Except.bind], g2, g3⟩

end

/-! ## Where the code differs, and examples -/

/-- **C79** (code differs) `make_diag` of the blocks that `get_diag` keeps is not block diagonal: with blocks over one axis, every
element off the diagonal of a block is replaced by zero. -/
theorem C79_make_diag_refuted {P a b : List Nat} {X : Arr ℝ} (hX : X.shape = P ++ a ++ b ++ b) (ha : a ≠ []) {p i j l : List Nat}
    (hp : p ∈ indices P) (hi : i ∈ indices a) (hj : j ∈ indices b) (hl : l ∈ indices b) (hjl : j ≠ l)
    (h0 : X.at (coord (p ++ i ++ j ++ l)) ≠ 0) :
    ∃ Y, makeDiagAxes X (a.length + b.length) b.length = .ok Y ∧
      Y.at (coord (p ++ i ++ j ++ i ++ l)) ≠ X.at (coord (p ++ i ++ j ++ l)) := by
  obtain ⟨Y, h1, _, h3⟩ := makeDiagAxes_ok hX ha
  refine ⟨Y, h1, ?_⟩
  rw [h3 p hp i hi j hj i hi l hl, if_neg fun h => hjl h.2]
  exact h0.symm

/-- **C79** If all axes are kept, `make_diag` changes nothing. -/
theorem C79_make_diag_same {P b : List Nat} {X : Arr ℝ} (hX : X.shape = P ++ b ++ b) : makeDiagAxes X b.length b.length = .ok X := by
  have t1 : trailingShape X.shape b.length = b := by rw [hX]; exact trailing_append _ _
  have t2 : (trailingShape X.shape (2 * b.length)).take b.length = b := by
    have : trailingShape X.shape (2 * b.length) = b ++ b := by
      rw [hX, List.append_assoc, show 2 * b.length = (b ++ b).length by simp; omega]
      exact trailing_append _ _
    rw [this]; simp
  unfold makeDiagAxes
  rw [if_neg (by omega)]
  by_cases h : b.length = 0
  · rw [if_pos h]; rfl
  · rw [if_neg h, if_neg (by rw [hX]; simp; omega), if_neg (by rw [t1, t2]; simp), if_pos rfl]
    rfl

/-- two matrices of ones, as the blocks of a larger matrix -/
example : ∃ Y, makeDiagAxes (⟨[2, 2, 2], fun _ => 1⟩ : Arr ℝ) 2 1 = .ok Y ∧ Y.at (coord [1, 0, 1, 1]) ≠ 1 := by
  obtain ⟨Y, h1, h2⟩ := C79_make_diag_refuted (P := []) (a := [2]) (b := [2]) (X := ⟨[2, 2, 2], fun _ => (1 : ℝ)⟩) rfl (by simp)
    (p := []) (i := [1]) (j := [0]) (l := [1]) (by decide) (by decide) (by decide) (by decide) (by decide) (by simp [Arr.at])
  exact ⟨Y, h1, h2⟩

/-- **C79** (code differs) The docstring of `outer` puts the axes of the two arrays in turns, `(N1, M1, N2, M2)`; the result
has all axes of the first array first. -/
theorem C79_outer_docstring_refuted : ∃ Y, linOuter (⟨[2, 3], fun _ => (1 : ℝ)⟩) ⟨[5, 7], fun _ => 1⟩ 2 = .ok Y ∧ Y.shape = [2, 3, 5, 7] ∧
    Y.shape ≠ [2, 5, 3, 7] := by
  obtain ⟨Y, h1, h2, _⟩ := C79_outer (pa := []) (pb := []) (P := []) (s := [2, 3]) (t := [5, 7]) (A := ⟨[2, 3], fun _ => (1 : ℝ)⟩)
    (B := ⟨[5, 7], fun _ => 1⟩) rfl rfl rfl ((broadcastedShape_ok _ _).1 (by decide))
  exact ⟨Y, h1, h2, by rw [h2]; decide⟩

/-- **C79** `outer` of an array with too few axes is rejected. -/
theorem C79_outer_raises {A B : Arr ℝ} {d : Nat} (h : A.shape.length < d ∨ B.shape.length < d) : linOuter A B d = .error .valueError := by
  unfold linOuter
  rw [if_pos (by omega)]
  by_cases h1 : d > A.shape.length
  · rw [if_pos h1]
  · rw [if_neg h1, if_pos (by omega)]

/-- a vector on two plates and one vector -/
example : ∃ Y, linOuter (⟨[2, 3], fun c => (c 0 : ℝ)⟩) ⟨[3], fun c => c 0 + 1⟩ 1 = .ok Y ∧ Y.shape = [2, 3, 3] ∧
    matrixOf Y [1] [3] [3] (singleIx 2 (by omega)) (singleIx 1 (by omega)) = 4 := by
  obtain ⟨Y, h1, h2, h3⟩ := C79_outer (pa := [2]) (pb := []) (P := [2]) (s := [3]) (t := [3]) (A := ⟨[2, 3], fun c => (c 0 : ℝ)⟩)
    (B := ⟨[3], fun c => c 0 + 1⟩) rfl rfl rfl ((broadcastedShape_ok _ _).1 (by decide))
  refine ⟨Y, h1, h2, ?_⟩
  rw [h3 [1] (by decide)]
  norm_num [vecMulVec_apply, vectorOf, singleIx, Arr.at, restrict, axisLen, coord]

/-- three factors on different plates -/
example : ∃ Y, linInner [(⟨[2, 3], fun c => (c 0 : ℝ)⟩), ⟨[3], fun c => c 0⟩, ⟨[1, 3], fun _ => 2⟩] 1 = .ok Y ∧ Y.shape = [2] ∧
    Y.at (coord [1]) = 10 := by
  obtain ⟨Y, h1, h2, h3⟩ := C79_inner (pls := [[2], [], [1]]) (P := [2]) (s := [3])
    (args := [(⟨[2, 3], fun c => (c 0 : ℝ)⟩), ⟨[3], fun c => c 0⟩, ⟨[1, 3], fun _ => 2⟩]) (by simp) rfl
    ((broadcastedShape_ok _ _).1 (by decide))
  refine ⟨Y, h1, h2, ?_⟩
  rw [h3 [1] (by decide)]
  simp only [vectorOf, List.map_cons, List.map_nil]
  rw [sum_single 3 fun q => ([Arr.at ⟨[2, 3], fun c => (c 0 : ℝ)⟩ (coord ([1] ++ q)), Arr.at ⟨[3], fun c => (c 0 : ℝ)⟩ (coord ([1] ++ q)),
    Arr.at ⟨[1, 3], fun _ => (2 : ℝ)⟩ (coord ([1] ++ q))] : List ℝ).prod]
  simp [Finset.sum_range_succ, Arr.at, restrict, axisLen, coord]
  norm_num

/-- a matrix on two plates times a vector -/
example : ∃ Y, linMvdot (⟨[2, 2, 3], fun c => (c 1 : ℝ)⟩) ⟨[3], fun c => c 0⟩ 1 = .ok Y ∧ Y.shape = [2, 2] := by
  obtain ⟨Y, h1, h2, _⟩ := C79_mvdot (pa := [2]) (pb := []) (P := [2]) (s := [2]) (t := [3]) (A := ⟨[2, 2, 3], fun c => (c 1 : ℝ)⟩)
    (b := ⟨[3], fun c => c 0⟩) rfl rfl rfl ((broadcastedShape_ok _ _).1 (by decide))
  exact ⟨Y, h1, h2⟩

/-- a transpose over two axes -/
example : ∃ Y, linTranspose (⟨[4, 2, 3, 5, 6], fun c => (c 0 : ℝ)⟩) 2 = .ok Y ∧ Y.shape = [4, 5, 6, 2, 3] := by
  obtain ⟨Y, h1, h2, _⟩ := C79_transpose (P := [4]) (s := [2, 3]) (t := [5, 6]) (X := ⟨[4, 2, 3, 5, 6], fun c => (c 0 : ℝ)⟩) rfl rfl
  exact ⟨Y, h1, h2⟩

/-- diagonals over two axes on three plates -/
example : (∃ Y, diagAxes (⟨[3, 2, 2], fun c => (c 0 : ℝ)⟩) 2 = .ok Y ∧ Y.shape = [3, 2, 2, 2, 2]) ∧
    (∃ Y, makeDiagAxes (⟨[3, 2, 2], fun c => (c 0 : ℝ)⟩) 2 0 = .ok Y ∧ Y.shape = [3, 2, 2, 2, 2]) ∧
    (∃ Y, getDiagAxes (⟨[3, 2, 2, 2, 2], fun c => (c 0 : ℝ)⟩) 2 0 = .ok Y ∧ Y.shape = [3, 2, 2]) ∧
    ∃ Y, getDiagAxes (⟨[3, 2, 4, 2, 4], fun c => (c 0 : ℝ)⟩) 2 1 = .ok Y ∧ Y.shape = [3, 2, 4, 4] ∧
      Y.at (coord [1, 1, 2, 3]) = 3 := by
  obtain ⟨Y, h1, h2, _⟩ := C79_diag (P := [3]) (s := [2, 2]) (X := ⟨[3, 2, 2], fun c => (c 0 : ℝ)⟩) rfl
  obtain ⟨Y', g1, g2, _⟩ := C79_make_diag (P := [3]) (s := [2, 2]) (X := ⟨[3, 2, 2], fun c => (c 0 : ℝ)⟩) rfl
  obtain ⟨Y'', k1, k2, _⟩ := C79_get_diag_all (P := [3]) (s := [2, 2]) (X := ⟨[3, 2, 2, 2, 2], fun c => (c 0 : ℝ)⟩) rfl
  obtain ⟨Z, l1, l2, l3⟩ := C79_get_diag (P := [3]) (a := [2]) (b := [4]) (X := ⟨[3, 2, 4, 2, 4], fun c => (c 0 : ℝ)⟩) rfl
  refine ⟨⟨Y, h1, h2⟩, ⟨Y', g1, g2⟩, ⟨Y'', k1, k2⟩, Z, l1, l2, ?_⟩
  have := l3 [1] (by decide) [1] (by decide) [2] (by decide) [3] (by decide)
  simp only [List.cons_append, List.nil_append] at this
  rw [this]
  norm_num [Arr.at, restrict, axisLen, coord]

/-- three matrices on different plates -/
example : ∃ As : List (Arr ℝ), As.length = 3 ∧ ∃ Y, dotAll As = .ok Y ∧
    Y.shape = [5, 2] ++ [2, 2] ∧ ∀ p ∈ indices [5, 2], IsProductAt p As 2 2 (matrixOf Y p [2] [2]) := by
  have hc : Chain [(⟨[2, 2, 3], fun c => (c 0 : ℝ)⟩), ⟨[3, 4], fun c => c 0⟩, ⟨[5, 1, 4, 2], fun _ => 2⟩] [[2], [], [5, 1]] 2 2 :=
    .snoc (As := [_, _]) (pls := [_, _]) (.snoc (As := [_]) (pls := [_]) (.one rfl) (pl := []) rfl) (pl := [5, 1]) rfl
  exact ⟨_, rfl, C79_dot (P := [5, 2]) hc ((broadcastedShape_ok _ _).1 (by decide))⟩

/-- inner lengths 3 and 4 -/
example : dotAll [(⟨[2, 2, 3], fun c => (c 0 : ℝ)⟩), ⟨[4, 4], fun c => c 0⟩] = .error .valueError :=
  C79_dot_two_raises (pa := [2]) (pb := []) rfl rfl (by decide)

/-- a trace with broadcast plates -/
example : ∃ Y, traceDot (⟨[2, 2, 3], fun c => (c 0 : ℝ)⟩) ⟨[3, 2], fun c => c 1⟩ = .ok Y ∧ Y.shape = [2] := by
  obtain ⟨Y, h1, h2, _⟩ := C79_tracedot (pa := [2]) (pb := []) (P := [2]) (m := 2) (n := 3) (A := ⟨[2, 2, 3], fun c => (c 0 : ℝ)⟩)
    (B := ⟨[3, 2], fun c => c 1⟩) rfl rfl ((broadcastedShape_ok _ _).1 (by decide))
  exact ⟨Y, h1, h2⟩

/-- multiples of the identity on three plates -/
noncomputable def scaledEye (c : ℝ) : Arr ℝ := ⟨[3, 2, 2], fun k => if k 1 = k 0 then c else 0⟩

theorem scaledEye_matrix (c : ℝ) {p : List Nat} (hp : p ∈ indices [3]) : matrixOf (scaledEye c) p [2] [2] = diagonal fun _ => c := by
  ext i j
  obtain ⟨a, ha, ea⟩ := mem_single i
  obtain ⟨b, hb, eb⟩ := mem_single j
  rw [matrixOf_apply (plates := [3]) rfl hp, diagonal_apply]
  have h0 : coord (p ++ i ++ j) 0 = b := by rw [ea, eb, coord_append']; simp [coord]
  have h1 : coord (p ++ i ++ j) 1 = a := by rw [ea, eb, List.append_assoc, coord_append']; simp [coord]
  simp only [scaledEye, h0, h1]
  have hij : i = j ↔ a = b := by rw [← Subtype.val_inj, ea, eb]; simp
  simp only [hij]

theorem scaledEye_det (c : ℝ) {p : List Nat} (hp : p ∈ indices [3]) :
    (matrixOf (scaledEye c) p [2] [2]).det = ∏ _i : MultiIndex [2], c := by
  rw [scaledEye_matrix c hp, det_diagonal]

/-- regular, singular and positive definite matrices -/
example : (∃ V, invAxes (scaledEye 2) 1 = .ok V ∧ V.shape = [3, 2, 2]) ∧ invAxes (scaledEye 0) 1 = .error .exception ∧
    ∃ l, logdetCov (scaledEye 2) 1 = .ok l ∧ l.shape = [3] := by
  refine ⟨?_, ?_, ?_⟩
  · obtain ⟨V, h1, h2, _⟩ := C79_inv (P := [3]) (s := [2]) (A := scaledEye 2) rfl (by simp) fun p hp => by
      rw [scaledEye_det 2 hp]; simp
    exact ⟨V, h1, h2⟩
  · refine C79_inv_raises (P := [3]) (n := 2) rfl ⟨[1], by decide, ?_⟩
    rw [scaledEye_det 0 (by decide)]
    exact Finset.prod_eq_zero (Finset.mem_univ (singleIx 0 (by omega))) rfl
  · obtain ⟨l, h1, h2, _⟩ := C79_logdet_cov (P := [3]) (s := [2]) (C := scaledEye 2) rfl fun p hp => by
      rw [scaledEye_matrix 2 hp]; exact posDef_diagonal_iff.2 fun _ => by norm_num
    exact ⟨l, h1, h2⟩

/-- the factor of such matrices -/
example : ∃ A U, IsCholeskyOf A U [3] [2] := by
  obtain ⟨U, _, h⟩ := C76_chol (scaledEye 2) [3] [2] rfl fun p hp => by
    rw [scaledEye_matrix 2 hp]; exact posDef_diagonal_iff.2 fun _ => by norm_num
  exact ⟨_, U, h⟩

/-- three triangular matrices: one number comes out -/
example : (logdetTri (scaledEye 2)).shape = [] ∧ (logdetTri (scaledEye 2)).get (coord []) = 3 * (2 * Real.log 2) := by
  have key : ∀ p i j, (scaledEye 2).get (coord (p ++ [i, j])) = if i = j then 2 else 0 := by
    intro p i j
    have h0 : coord (p ++ [i, j]) 0 = j := by rw [coord_append']; simp [coord]
    have h1 : coord (p ++ [i, j]) 1 = i := by rw [coord_append']; simp [coord]
    simp only [scaledEye, h0, h1]
  obtain ⟨h1, h2⟩ := C79_logdet_tri_refuted (P := [3]) (n := 2) (R := scaledEye 2) rfl
    (fun p _ i j h => by rw [key, if_neg (by omega)]) (fun p _ i _ => by rw [key, if_pos rfl]; norm_num)
  refine ⟨h1, h2.trans ?_⟩
  rw [List.map_congr_left fun p hp => by rw [scaledEye_det 2 hp]]
  have hc : Fintype.card (MultiIndex [2]) = 2 := by simp [Fintype.card_congr (singleEquiv 2)]
  simp only [Finset.prod_const, Finset.card_univ, hc]
  simp [indices, Real.log_pow]
  ring

/-- one triangular matrix -/
example : ∃ R : Arr ℝ, R.shape = [2, 2] ∧ (∀ i j, j < i → R.get (coord [i, j]) = 0) ∧ ∀ i < 2, R.get (coord [i, i]) ≠ 0 :=
  ⟨⟨[2, 2], fun c => if c 0 < c 1 then 0 else -3⟩, rfl, fun i j h => by simp [coord, h], fun i _ => by simp [coord]⟩

/-- scalars and matrices with plates -/
example : (∃ Y, mmDot (⟨[2], fun c => (c 0 : ℝ)⟩) ⟨[3, 1], fun _ => 2⟩ 0 = .ok Y ∧ Y.shape = [3, 2]) ∧
    ∃ Y, mmDot (⟨[2, 2, 3], fun c => (c 0 : ℝ)⟩) ⟨[3, 4], fun _ => 2⟩ 1 = .ok Y ∧ Y.shape = [2, 2, 4] := by
  obtain ⟨Y, h1, h2, _⟩ := C79_mmdot_partial (d := 0) (pa := [2]) (pb := [3, 1]) (P := [3, 2]) (s := []) (t := []) (r := []) rfl rfl rfl
    (by omega) (A := ⟨[2], fun c => (c 0 : ℝ)⟩) (B := ⟨[3, 1], fun _ => 2⟩) rfl rfl ((broadcastedShape_ok _ _).1 (by decide))
  obtain ⟨Z, g1, g2, _⟩ := C79_mmdot_partial (d := 1) (pa := [2]) (pb := []) (P := [2]) (s := [2]) (t := [3]) (r := [4]) rfl rfl rfl
    (by omega) (A := ⟨[2, 2, 3], fun c => (c 0 : ℝ)⟩) (B := ⟨[3, 4], fun _ => 2⟩) rfl rfl ((broadcastedShape_ok _ _).1 (by decide))
  exact ⟨⟨Y, h1, h2⟩, Z, g1, g2⟩

end Verif
