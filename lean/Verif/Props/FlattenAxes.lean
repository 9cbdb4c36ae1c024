import Verif.Model.FlattenAxes
import Verif.Lemmas.RowMajor
import Verif.Lemmas.Message
import Verif.Props.CholSolve

/-!
# C76: matrices over several axes
-/

namespace Verif
open Spec Matrix

theorem splitBlocks_flatten (bs : List (List Nat)) : splitBlocks (bs.map List.length) bs.flatten = bs := by
  induction bs with
  | nil => rfl
  | cons b bs ih => simp [splitBlocks, ih]

/-- **C76** `flatten_axes` makes one axis of each block of axes: the element at a multi-index moves to the positions of its
blocks, last axis fastest. -/
theorem C76_flatten {α : Type} (X : Arr α) (plates : List Nat) (bs : List (List Nat)) (hs : X.shape = plates ++ bs.flatten)
    (hne : ∀ b ∈ bs, b ≠ []) :
    ∃ Y, flattenAxes X (bs.map List.length) = .ok Y ∧ Y.shape = plates ++ bs.map List.prod ∧
      ∀ p ∈ indices plates, ∀ is, List.Forall₂ (fun i s => i ∈ indices s) is bs →
        Y.get (coord (p ++ List.zipWith rowMajor bs is)) = X.get (coord (p ++ is.flatten)) := by
  rcases eq_or_ne bs [] with rfl | hbs
  · refine ⟨X, by simp [flattenAxes, pure, Except.pure], by simpa using hs, fun p _ is h => ?_⟩
    rw [List.forall₂_nil_right_iff.1 h]
    simp
  have hsum : (bs.map List.length).sum = bs.flatten.length := List.length_flatten.symm
  have hl : X.shape.length - (bs.map List.length).sum = plates.length := by
    rw [hs, hsum, List.length_append]; omega
  have hm : bs.mapM prodSize = .ok (bs.map List.prod) :=
    mapM_ok_of _ _ _ fun b hb => by simp [prodSize, hne b hb]
  have hprod : (plates ++ bs.map List.prod).prod = X.shape.prod := by
    rw [hs, List.prod_append, List.prod_append, List.prod_flatten]
  obtain ⟨Y, hr⟩ : ∃ Y, npReshape X (plates ++ bs.map List.prod) = .ok Y := ⟨_, by rw [npReshape, if_pos hprod]⟩
  refine ⟨Y, ?_, (npReshape_get hr).1, ?_⟩
  rotate_left
  · intro p hp is h
    refine npReshape_index hr ?_ ?_ ?_
    · rw [List.length_append, List.length_append, length_of_mem_indices hp, length_of_mem_indices (zipWith_mem_indices h)]
    · rw [hs]; exact append_mem_indices hp (flatten_mem_indices h)
    · rw [hs, rowMajor_append (length_of_mem_indices hp), rowMajor_append (length_of_mem_indices hp),
        rowMajor_flatten h, List.prod_flatten]
  · rw [← hr]
    unfold flattenAxes
    rw [if_neg (by rw [hs, hsum, List.length_append]; omega), if_neg (by simpa using hbs), hl, hs]
    simp only [List.drop_left, List.take_left, splitBlocks_flatten, hm]
    rfl

/-- **C76** `reshape_axes` is its inverse. -/
theorem C76_reshape {α : Type} (Y : Arr α) (plates : List Nat) (bs : List (List Nat))
    (hs : Y.shape = plates ++ bs.map List.prod) :
    ∃ X, reshapeAxes Y bs = .ok X ∧ X.shape = plates ++ bs.flatten ∧
      ∀ p ∈ indices plates, ∀ is, List.Forall₂ (fun i s => i ∈ indices s) is bs →
        X.get (coord (p ++ is.flatten)) = Y.get (coord (p ++ List.zipWith rowMajor bs is)) := by
  have hl : Y.shape.length - bs.length = plates.length := by
    rw [hs, List.length_append, List.length_map]; omega
  have hprod : (plates ++ bs.flatten).prod = Y.shape.prod := by
    rw [hs, List.prod_append, List.prod_append, List.prod_flatten]
  obtain ⟨X, hr⟩ : ∃ X, npReshape Y (plates ++ bs.flatten) = .ok X := ⟨_, by rw [npReshape, if_pos hprod]⟩
  refine ⟨X, ?_, (npReshape_get hr).1, ?_⟩
  rotate_left
  · intro p hp is h
    refine npReshape_index hr ?_ ?_ ?_
    · rw [List.length_append, List.length_append, length_of_mem_indices hp, length_of_mem_indices (flatten_mem_indices h)]
    · rw [hs]; exact append_mem_indices hp (zipWith_mem_indices h)
    · rw [hs, rowMajor_append (length_of_mem_indices hp), rowMajor_append (length_of_mem_indices hp),
        rowMajor_flatten h, List.prod_flatten]
  · rw [← hr]
    unfold reshapeAxes
    rw [if_neg (by rw [hs, List.length_append, List.length_map]; omega), hl, if_neg (by rw [hs, List.drop_left]; simp), hs,
      List.take_left]

/-- **C76** Too few axes or wrong sizes raise. -/
theorem C76_raises {α : Type} (X : Arr α) :
    (∀ ndims : List Nat, X.shape.length < ndims.sum → flattenAxes X ndims = .error .valueError) ∧
    (∀ bs : List (List Nat), X.shape.length < bs.length ∨ X.shape.drop (X.shape.length - bs.length) ≠ bs.map List.prod →
      reshapeAxes X bs = .error .valueError) := by
  constructor
  · intro nd h
    unfold flattenAxes
    rw [if_pos h]
    rfl
  · intro bs h
    unfold reshapeAxes
    by_cases h1 : X.shape.length < bs.length
    · rw [if_pos h1]; rfl
    · rw [if_neg h1, if_pos (h.resolve_left h1)]
      rfl

/-- **C76** Flattening no axes as one of the blocks should add an axis of unit length, as the size of an empty shape is one, but
raises `TypeError`: `np.prod(())` is a float. -/
theorem C76_no_axes_refuted {α : Type} (X : Arr α) : flattenAxes X [0] = .error .typeError := by
  unfold flattenAxes
  rw [if_neg (by simp), if_neg (by simp)]
  rfl

/-- two axes of lengths 2 and 3 on two plates: element `(1, 2)` becomes element `5` -/
example : ∃ Y, flattenAxes (⟨[2, 2, 3], fun c => c 0 + 10 * c 1 + 100 * c 2⟩ : Arr Nat) [2] = .ok Y ∧ Y.shape = [2, 6] ∧
    Y.get (coord [1, 5]) = 112 := by
  obtain ⟨Y, h1, h2, h3⟩ := C76_flatten (⟨[2, 2, 3], fun c => c 0 + 10 * c 1 + 100 * c 2⟩ : Arr Nat) [2] [[2, 3]] rfl (by simp)
  refine ⟨Y, h1, h2, ?_⟩
  have := h3 [1] (by decide) [[1, 2]] (List.Forall₂.cons (by decide) List.Forall₂.nil)
  simpa [rowMajor, coord] using this

/-! ## Matrices -/

theorem coord_append' (p i : List Nat) (k : Nat) :
    coord (p ++ i) k = if k < i.length then coord i k else coord p (k - i.length) := by
  unfold coord
  simp only [List.getD_eq_getElem?_getD, List.reverse_append]
  split
  · rw [List.getElem?_append_left (by simpa using ‹_›)]
  · rw [List.getElem?_append_right (by simp; omega), List.length_reverse]

theorem matCoord_coord (p : List Nat) (i j : Nat) : matCoord i j (coord p) = coord (p ++ [i, j]) := by
  funext k
  rw [coord_append']
  rcases k with _ | _ | k
  · rfl
  · rfl
  · simp [matCoord]

theorem forall₂_two {i j s t : List Nat} (hi : i ∈ indices s) (hj : j ∈ indices t) :
    List.Forall₂ (fun i s => i ∈ indices s) [i, j] [s, t] := .cons hi (.cons hj .nil)

theorem one_axis {s i : List Nat} (hs : s.length = 1) (hi : i ∈ indices s) : s.prod = s.headD 0 ∧ i = [rowMajor s i] := by
  obtain ⟨d, rfl⟩ := List.length_eq_one_iff.1 hs
  obtain ⟨a, j, rfl, h1, h2⟩ := mem_indices_cons'.1 hi
  rw [mem_indices_nil.1 h2]
  simp [rowMajor]

theorem flattenMatrix_ok {X : Arr ℝ} {plates s t : List Nat} {n : Nat} (hX : X.shape = plates ++ s ++ t)
    (hs : s.length = n + 1) (ht : t.length = n + 1) :
    ∃ Y, flattenMatrix X (n + 1) = .ok Y ∧ Y.shape = plates ++ [s.prod, t.prod] ∧
      ∀ p ∈ indices plates, ∀ i ∈ indices s, ∀ j ∈ indices t,
        Y.get (coord (p ++ [rowMajor s i, rowMajor t j])) = X.get (coord (p ++ i ++ j)) := by
  unfold flattenMatrix
  split_ifs with h1
  · refine ⟨X, rfl, ?_, fun p _ i hi j hj => ?_⟩
    · obtain ⟨d, rfl⟩ := List.length_eq_one_iff.1 (hs.trans h1)
      obtain ⟨e, rfl⟩ := List.length_eq_one_iff.1 (ht.trans h1)
      simp [hX]
    · conv_rhs => rw [(one_axis (hs.trans h1) hi).2, (one_axis (ht.trans h1) hj).2]
      simp
  · obtain ⟨Y, h2, h3, h4⟩ := C76_flatten X plates [s, t] (by simp [hX]) (by
      intro b hb
      simp at hb
      rcases hb with rfl | rfl <;> rintro rfl <;> simp_all)
    refine ⟨Y, by simpa [hs, ht] using h2, by simpa using h3, fun p hp i hi j hj => ?_⟩
    simpa using h4 p hp [i, j] (forall₂_two hi hj)

theorem reshapeMatrix_ok {Y : Arr ℝ} {plates s t : List Nat} {n : Nat} (hY : Y.shape = plates ++ [s.prod, t.prod])
    (hs : s.length = n + 1) (ht : t.length = n + 1) :
    ∃ X, reshapeMatrix Y (n + 1) s t = .ok X ∧ X.shape = plates ++ s ++ t ∧
      ∀ p ∈ indices plates, ∀ i ∈ indices s, ∀ j ∈ indices t,
        X.get (coord (p ++ i ++ j)) = Y.get (coord (p ++ [rowMajor s i, rowMajor t j])) := by
  unfold reshapeMatrix
  split_ifs with h1
  · refine ⟨Y, rfl, ?_, fun p _ i hi j hj => ?_⟩
    · obtain ⟨d, rfl⟩ := List.length_eq_one_iff.1 (hs.trans h1)
      obtain ⟨e, rfl⟩ := List.length_eq_one_iff.1 (ht.trans h1)
      simp [hY]
    · conv_lhs => rw [(one_axis (hs.trans h1) hi).2, (one_axis (ht.trans h1) hj).2]
      simp
  · obtain ⟨X, h2, h3, h4⟩ := C76_reshape Y plates [s, t] (by simp [hY])
    refine ⟨X, h2, by simpa using h3, fun p hp i hi j hj => ?_⟩
    simpa using h4 p hp [i, j] (forall₂_two hi hj)

/-- a broadcast read of trailing axes that are present -/
theorem restrict_append {pu s p i p' : List Nat} (hi : i ∈ indices s) (hp : coord p' = restrict pu (coord p)) :
    restrict (pu ++ s) (coord (p ++ i)) = coord (p' ++ i) := by
  funext k
  have hl := length_of_mem_indices hi
  unfold restrict
  rw [axisLen_append, coord_append', coord_append', hl]
  by_cases h : k < s.length
  · simp only [h, if_true]
    split_ifs with h1
    · have := coord_valid hi k
      omega
    · rfl
  · simp only [h, if_false]
    rw [hp]
    rfl

theorem restrict_coord {pl p : List Nat} (hp : p ∈ indices pl) : restrict pl (coord p) = coord p :=
  restrict_of_valid (coord_valid hp)

theorem matrixOf_apply {X : Arr ℝ} {plates s t p : List Nat} (hX : X.shape = plates ++ s ++ t) (hp : p ∈ indices plates)
    (i : MultiIndex s) (j : MultiIndex t) : matrixOf X p s t i j = X.get (coord (p ++ i ++ j)) := by
  have hi := List.mem_toFinset.1 i.2
  have hj := List.mem_toFinset.1 j.2
  rw [matrixOf, of_apply, Arr.at_of_valid]
  rw [hX]
  exact coord_valid (append_mem_indices (append_mem_indices hp hi) hj)

/-- the matrix in the order of the rows -/
noncomputable def flatMat (X : Arr ℝ) (p s t : List Nat) : Matrix (Fin s.prod) (Fin t.prod) ℝ :=
  (matrixOf X p s t).submatrix (rowEquiv s).symm (rowEquiv t).symm

theorem rowMajor_symm {s : List Nat} (a : Fin s.prod) : rowMajor s ((rowEquiv s).symm a) = a := by
  rw [← rowEquiv_val, Equiv.apply_symm_apply]

theorem symm_mem {s : List Nat} (a : Fin s.prod) : ((rowEquiv s).symm a : List Nat) ∈ indices s :=
  List.mem_toFinset.1 ((rowEquiv s).symm a).2

/-- the flattened array has this matrix -/
theorem flattened_get {X Y : Arr ℝ} {plates s t p : List Nat} (hX : X.shape = plates ++ s ++ t)
    (h : ∀ p ∈ indices plates, ∀ i ∈ indices s, ∀ j ∈ indices t,
        Y.get (coord (p ++ [rowMajor s i, rowMajor t j])) = X.get (coord (p ++ i ++ j))) (hp : p ∈ indices plates)
    (a : Fin s.prod) (b : Fin t.prod) : Y.get (coord (p ++ [(a : Nat), (b : Nat)])) = flatMat X p s t a b := by
  have := h p hp _ (symm_mem a) _ (symm_mem b)
  rw [rowMajor_symm, rowMajor_symm] at this
  rw [this, flatMat, submatrix_apply, matrixOf_apply hX hp]

theorem matAt_flattened {X Y : Arr ℝ} {plates s p : List Nat} (hX : X.shape = plates ++ s ++ s)
    (h : ∀ p ∈ indices plates, ∀ i ∈ indices s, ∀ j ∈ indices s,
        Y.get (coord (p ++ [rowMajor s i, rowMajor s j])) = X.get (coord (p ++ i ++ j))) (hp : p ∈ indices plates) :
    matAt Y s.prod (coord p) = flatMat X p s s := by
  ext a b
  rw [matAt, of_apply, matCoord_coord, flattened_get hX h hp]

theorem matrixOf_eq_flatMat (X : Arr ℝ) (p s t : List Nat) :
    matrixOf X p s t = (flatMat X p s t).submatrix (rowEquiv s) (rowEquiv t) := by
  ext i j; simp [flatMat]

/-- The upper triangle of a matrix over several axes, in the order of the rows. -/
def upperOf {s : List Nat} (M : Matrix (MultiIndex s) (MultiIndex s) ℝ) : Matrix (MultiIndex s) (MultiIndex s) ℝ :=
  of fun i j => if rowMajor s i ≤ rowMajor s j then M i j else 0

/-- The upper triangles of `U` are the Cholesky factors of the matrices of `A`, on every plate; below the diagonal there may be
anything. -/
structure IsCholeskyOf (A U : Arr ℝ) (plates s : List Nat) : Prop where
  shapeA : A.shape = plates ++ s ++ s
  shapeU : U.shape = plates ++ s ++ s
  pos : ∀ p ∈ indices plates, ∀ i, 0 < matrixOf U p s s i i
  eq : ∀ p ∈ indices plates, (upperOf (matrixOf U p s s))ᵀ * upperOf (matrixOf U p s s) = matrixOf A p s s

theorem triu_flatMat (U : Arr ℝ) (p s : List Nat) :
    triu (flatMat U p s s) = (upperOf (matrixOf U p s s)).submatrix (rowEquiv s).symm (rowEquiv s).symm := by
  ext a b
  simp only [triu, upperOf, of_apply, submatrix_apply, flatMat, rowMajor_symm, Fin.le_def]

theorem IsCholeskyOf.isChol {A U : Arr ℝ} {plates s p : List Nat} (h : IsCholeskyOf A U plates s) (hp : p ∈ indices plates) :
    IsChol (flatMat A p s s) (triu (flatMat U p s s)) := by
  refine ⟨fun i j hij => ?_, fun i => ?_, ?_⟩
  · simp [triu, not_le.2 hij]
  · simp [triu]
    exact h.pos p hp _
  · rw [triu_flatMat, transpose_submatrix, submatrix_mul_equiv, h.eq p hp]
    rfl

theorem axisLen_two (pl : List Nat) (a b : Nat) : axisLen (pl ++ [a, b]) 0 = b ∧ axisLen (pl ++ [a, b]) 1 = a := by
  constructor <;> simp [axisLen]

theorem take_two (pl : List Nat) (a b : Nat) : (pl ++ [a, b]).take ((pl ++ [a, b]).length - 2) = pl := by
  simp

theorem trailing_append (pl s : List Nat) : trailingShape (pl ++ s) s.length = s := by
  simp [trailingShape]

theorem ofMats_get {D : Nat} {plates p : List Nat} (M : (Nat → Nat) → Matrix (Fin D) (Fin D) ℝ) {a b : Nat} (ha : a < D)
    (hb : b < D) : (ofMats plates M).get (coord (p ++ [a, b])) = M (coord p) ⟨a, ha⟩ ⟨b, hb⟩ := by
  have h0 : coord (p ++ [a, b]) 0 = b := by rw [coord_append']; simp [coord]
  have h1 : coord (p ++ [a, b]) 1 = a := by rw [coord_append']; simp [coord]
  have h2 : (fun k => coord (p ++ [a, b]) (k + 2)) = coord p := by
    funext k; rw [coord_append']; simp
  simp only [ofMats]
  rw [h2, dif_pos (by rw [h0, h1]; exact ⟨ha, hb⟩)]
  simp only [h0, h1]

theorem isSymm_flatMat {A : Arr ℝ} {p s : List Nat} (h : (matrixOf A p s s).PosDef) : (flatMat A p s s).PosDef := by
  exact h.submatrix (rowEquiv s).symm.injective

/-- the matrix of no axes -/
theorem matrixOf_nil (X : Arr ℝ) (p : List Nat) (hX : X.shape = plates) (hp : p ∈ indices plates)
    (i j : MultiIndex []) : matrixOf X p [] [] i j = X.get (coord p) := by
  rw [matrixOf_apply (plates := plates) (by simp [hX]) hp]
  have hi := mem_indices_nil.1 (List.mem_toFinset.1 i.2)
  have hj := mem_indices_nil.1 (List.mem_toFinset.1 j.2)
  simp [hi, hj]

instance : Unique (MultiIndex []) where
  default := ⟨[], by simp [indices]⟩
  uniq i := Subtype.ext (mem_indices_nil.1 (List.mem_toFinset.1 i.2))

/-- **C76** `chol` gives the Cholesky factors of positive definite matrices over any number of axes. -/
theorem C76_chol (A : Arr ℝ) (plates s : List Nat) (hA : A.shape = plates ++ s ++ s)
    (hpd : ∀ p ∈ indices plates, (matrixOf A p s s).PosDef) :
    ∃ U, cholAxes A s.length = .ok U ∧ IsCholeskyOf A U plates s := by
  rcases hs : s.length with _ | n
  · obtain rfl : s = [] := List.length_eq_zero_iff.1 hs
    have hA' : A.shape = plates := by simpa using hA
    have hpos : ∀ p ∈ indices plates, 0 < A.get (coord p) := by
      intro p hp
      have := (hpd p hp).diag_pos (i := default)
      rwa [matrixOf_nil A p hA' hp] at this
    refine ⟨⟨A.shape, fun c => √(A.get c)⟩, by simp [cholAxes, pure, Except.pure], hA, hA, fun p hp i => ?_, fun p hp => ?_⟩
    · rw [matrixOf_nil (⟨A.shape, fun c => √(A.get c)⟩ : Arr ℝ) p hA' hp]
      exact Real.sqrt_pos.2 (hpos p hp)
    · ext i j
      have hij : j = i := Subsingleton.elim _ _
      subst hij
      rw [matrixOf_nil A p hA' hp]
      simp only [mul_apply, Fintype.sum_unique, transpose_apply, upperOf, of_apply]
      rw [if_pos, matrixOf_nil (⟨A.shape, fun c => √(A.get c)⟩ : Arr ℝ) p hA' hp, Real.mul_self_sqrt (hpos p hp).le]
      rw [Subsingleton.elim default j]
  · obtain ⟨C, h1, h2, h3⟩ := flattenMatrix_ok hA hs hs
    have hM : ∀ p ∈ indices plates, matAt C s.prod (coord p) = flatMat A p s s := fun p hp => matAt_flattened hA h3 hp
    have hfac : ∀ p ∈ indices plates, ∃ U, IsChol (flatMat A p s s) U ∧
        choFactor (flatMat A p s s) = .ok (of fun i j => if i ≤ j then U i j else flatMat A p s s i j) := by
      intro p hp
      have hpd' := isSymm_flatMat (hpd p hp)
      rcases chol_spec (A := flatMat A p s s) hpd'.isHermitian with ⟨_, U, hU, hU'⟩ | ⟨h, _⟩
      · refine ⟨U, hU', ?_⟩
        unfold choFactor
        rw [hU]
        rfl
      · exact absurd hpd' h
    let M : (Nat → Nat) → Matrix (Fin s.prod) (Fin s.prod) ℝ := fun p => okOrZero (choFactor (matAt C s.prod p))
    have hloop : cholLoop C s.prod = .ok (ofMats plates M) := by
      unfold cholLoop
      rw [h2, take_two]
      have : (indices plates).mapM (fun i => choFactor (matAt C s.prod fun k => i.reverse[k]?.getD 0))
          = .ok ((indices plates).map fun i => M (coord i)) := by
        refine mapM_ok_of _ _ _ fun p hp => ?_
        have e : (fun k => p.reverse[k]?.getD 0) = coord p := by
          funext k; rw [coord, List.getD_eq_getElem?_getD]
        obtain ⟨U, _, hU⟩ := hfac p hp
        rw [e]
        simp only [M]
        rw [hM p hp, hU]
        rfl
      simp only [nestedIterator_eq]
      rw [this]
      rfl
    obtain ⟨U, h4, h5, h6⟩ := reshapeMatrix_ok (Y := ofMats plates M) (plates := plates) (s := s) (t := s) rfl hs hs
    have hU : ∀ p ∈ indices plates, matrixOf U p s s = (M (coord p)).submatrix (rowEquiv s) (rowEquiv s) := by
      intro p hp
      ext i j
      have hi := List.mem_toFinset.1 i.2
      have hj := List.mem_toFinset.1 j.2
      rw [matrixOf_apply h5 hp, h6 p hp _ hi _ hj, ofMats_get M (rowMajor_lt hi) (rowMajor_lt hj)]
      rfl
    refine ⟨U, ?_, hA, h5, fun p hp i => ?_, fun p hp => ?_⟩
    · unfold cholAxes
      rw [if_neg (by omega), h1]
      have e : trailingShape A.shape (n + 1) = s := by rw [hA, ← hs]; exact trailing_append _ _
      simp only [bind, Except.bind]
      rw [if_neg (by rw [h2]; simp), if_neg (by rw [h2, (axisLen_two _ _ _).1, (axisLen_two _ _ _).2]; simp), h2,
        (axisLen_two _ _ _).1]
      rw [hloop, e]
      exact h4
    · obtain ⟨R, hR, hR'⟩ := hfac p hp
      rw [hU p hp]
      simp only [M, submatrix_apply]
      rw [hM p hp, hR']
      simp [okOrZero, hR.pos]
    · obtain ⟨R, hR, hR'⟩ := hfac p hp
      have e : upperOf (matrixOf U p s s) = R.submatrix (rowEquiv s) (rowEquiv s) := by
        ext i j
        rw [hU p hp]
        simp only [upperOf, of_apply, M, submatrix_apply]
        rw [hM p hp, hR']
        simp only [okOrZero, of_apply, ← rowEquiv_val, ← Fin.le_def]
        split_ifs with h
        · rfl
        · exact (hR.upper _ _ (not_le.1 h)).symm
      rw [e, transpose_submatrix, submatrix_mul_equiv, hR.eq, ← matrixOf_eq_flatMat]

/-- **C76** Over at least one axis, a symmetric matrix that is not positive definite raises. -/
theorem C76_chol_raises (A : Arr ℝ) (plates s : List Nat) (hA : A.shape = plates ++ s ++ s) (hs : s ≠ [])
    (hsym : ∀ p ∈ indices plates, (matrixOf A p s s).IsSymm) (hpd : ∃ p ∈ indices plates, ¬ (matrixOf A p s s).PosDef) :
    cholAxes A s.length = .error .exception := by
  obtain ⟨n, hn⟩ : ∃ n, s.length = n + 1 := ⟨s.length - 1, by have := List.length_pos_iff.2 hs; omega⟩
  obtain ⟨C, h1, h2, h3⟩ := flattenMatrix_ok hA hn hn
  have hM : ∀ p ∈ indices plates, matAt C s.prod (coord p) = flatMat A p s s := fun p hp => matAt_flattened hA h3 hp
  have hcase : ∀ p ∈ indices plates, ((flatMat A p s s).PosDef ∧ ∃ U, choFactor (flatMat A p s s) = .ok U) ∨
      (¬ (flatMat A p s s).PosDef ∧ choFactor (flatMat A p s s) = .error .exception) := by
    intro p hp
    have hsy : (flatMat A p s s).IsSymm := by
      unfold Matrix.IsSymm flatMat
      rw [transpose_submatrix, hsym p hp]
    rcases chol_spec hsy with ⟨h, U, hU, _⟩ | ⟨h, hU⟩
    · refine Or.inl ⟨h, of fun i j => if i ≤ j then U i j else flatMat A p s s i j, ?_⟩
      unfold choFactor
      rw [hU]
      rfl
    · refine Or.inr ⟨h, ?_⟩
      unfold choFactor
      rw [hU]
      rfl
  have hloop : cholLoop C s.prod = .error .exception := by
    unfold cholLoop
    rw [h2, take_two]
    have : (indices plates).mapM (fun i => choFactor (matAt C s.prod fun k => i.reverse[k]?.getD 0)) = .error .exception := by
      have e : ∀ p : List Nat, (fun k => p.reverse[k]?.getD 0) = coord p := by
        intro p; funext k; rw [coord, List.getD_eq_getElem?_getD]
      refine mapM_error_of _ _ _ (fun p hp e' he => ?_) ?_
      · rw [e, hM p hp] at he
        rcases hcase p hp with ⟨_, U, hU⟩ | ⟨_, hU⟩
        · rw [hU] at he; cases he
        · rw [hU] at he; cases he; rfl
      · obtain ⟨p, hp, hnp⟩ := hpd
        refine ⟨p, hp, .exception, ?_⟩
        rw [e, hM p hp]
        rcases hcase p hp with ⟨h, _⟩ | ⟨_, hU⟩
        · refine absurd ?_ hnp
          rw [matrixOf_eq_flatMat]
          exact h.submatrix (rowEquiv s).injective
        · exact hU
    simp only [nestedIterator_eq]
    rw [this]
    rfl
  unfold cholAxes
  rw [if_neg (by omega), hn, h1]
  simp only [bind, Except.bind]
  rw [if_neg (by rw [h2]; simp), if_neg (by rw [h2, (axisLen_two _ _ _).1, (axisLen_two _ _ _).2]; simp), h2,
    (axisLen_two _ _ _).1]
  rw [hloop]

/-- **C76** `chol_inv` of the factors gives the inverse matrices. -/
theorem C76_inverse {A U : Arr ℝ} {plates s : List Nat} (h : IsCholeskyOf A U plates s) :
    ∃ V, cholInvAxes U s.length = .ok V ∧ V.shape = plates ++ s ++ s ∧
      ∀ p ∈ indices plates, matrixOf A p s s * matrixOf V p s s = 1 := by
  rcases hs : s.length with _ | n
  · obtain rfl : s = [] := List.length_eq_zero_iff.1 hs
    have hA' : A.shape = plates := by simpa using h.shapeA
    have hU' : U.shape = plates := by simpa using h.shapeU
    refine ⟨⟨U.shape, fun c => 1 / U.get c / U.get c⟩, by simp [cholInvAxes, pure, Except.pure], h.shapeU, fun p hp => ?_⟩
    ext i j
    have hij : j = i := Subsingleton.elim _ _
    subst hij
    have e := congrFun (congrFun (h.eq p hp) j) j
    have hpos := h.pos p hp j
    rw [matrixOf_nil U p hU' hp] at hpos
    rw [matrixOf_nil A p hA' hp] at e
    simp only [mul_apply, Fintype.sum_unique, transpose_apply, upperOf, of_apply] at e
    rw [if_pos (by rw [Subsingleton.elim default j]), matrixOf_nil U p hU' hp] at e
    simp only [mul_apply, Fintype.sum_unique]
    rw [matrixOf_nil A p hA' hp, matrixOf_nil (⟨U.shape, fun c => 1 / U.get c / U.get c⟩ : Arr ℝ) p hU' hp, ← e, one_apply_eq]
    field_simp
  · obtain ⟨R, h1, h2, h3⟩ := flattenMatrix_ok h.shapeU hs hs
    have hM : ∀ p ∈ indices plates, matAt R s.prod (coord p) = flatMat U p s s := fun p hp => matAt_flattened h.shapeU h3 hp
    let W : Arr (Matrix (Fin s.prod) (Fin s.prod) ℝ) := ⟨plates, fun p => triu (matAt R s.prod p)⟩
    obtain ⟨V, h4, h5, h6⟩ := reshapeMatrix_ok (Y := ofMats plates (cholInvPlates cholSolveM W 1).get)
      (plates := plates) (s := s) (t := s) rfl hs hs
    refine ⟨V, ?_, h5, fun p hp => ?_⟩
    · unfold cholInvAxes
      rw [if_neg (by omega), h1]
      have e : trailingShape U.shape (n + 1) = s := by rw [h.shapeU, ← hs]; exact trailing_append _ _
      simp only [bind, Except.bind]
      rw [h2, (axisLen_two _ _ _).1, e, ← h4]
      unfold cholInvLoop
      rw [h2, take_two]
    · have hc := h.isChol hp
      have hV : matrixOf V p s s = (flatMat A p s s)⁻¹.submatrix (rowEquiv s) (rowEquiv s) := by
        ext i j
        have hi := List.mem_toFinset.1 i.2
        have hj := List.mem_toFinset.1 j.2
        rw [matrixOf_apply h5 hp, h6 p hp _ hi _ hj, ofMats_get _ (rowMajor_lt hi) (rowMajor_lt hj),
          (C49_chol_inv cholSolveM W 1).2 _ (coord_valid hp)]
        change cholInv (triu (matAt R s.prod (coord p))) _ _ = _
        rw [hM p hp, hc.inv]
        rfl
      rw [hV, matrixOf_eq_flatMat A, submatrix_mul_equiv,
        mul_nonsing_inv _ ((isUnit_iff_isUnit_det _).1 hc.posDef.isUnit), submatrix_one_equiv]

/-- **C76** `chol_logdet` of the factors is the logarithm of the determinant. -/
theorem C76_logdet {A U : Arr ℝ} {plates s : List Nat} (h : IsCholeskyOf A U plates s) :
    ∃ l, cholLogdetAxes U s.length = .ok l ∧ l.shape = plates ∧
      ∀ p ∈ indices plates, l.get (coord p) = Real.log (matrixOf A p s s).det := by
  rcases hs : s.length with _ | n
  · obtain rfl : s = [] := List.length_eq_zero_iff.1 hs
    have hA' : A.shape = plates := by simpa using h.shapeA
    have hU' : U.shape = plates := by simpa using h.shapeU
    refine ⟨⟨U.shape, fun c => 2 * Real.log (U.get c)⟩, by simp [cholLogdetAxes, pure, Except.pure], hU', fun p hp => ?_⟩
    have e := congrFun (congrFun (h.eq p hp) default) default
    simp only [mul_apply, Fintype.sum_unique, transpose_apply, upperOf, of_apply, le_refl, if_true] at e
    have hpos := h.pos p hp default
    rw [matrixOf_nil U p hU' hp] at hpos e
    rw [det_unique, ← e, Real.log_mul hpos.ne' hpos.ne']
    simp only
    ring
  · obtain ⟨R, h1, h2, h3⟩ := flattenMatrix_ok h.shapeU hs hs
    refine ⟨⟨plates, fun p => 2 * ∑ i ∈ Finset.range s.prod, Real.log (R.get (matCoord i i p))⟩, ?_, rfl, fun p hp => ?_⟩
    · unfold cholLogdetAxes
      rw [if_neg (by omega), h1]
      simp only [bind, Except.bind]
      rw [h2, (axisLen_two _ _ _).1, take_two]
      rfl
    · have hc := h.isChol hp
      rw [matrixOf_eq_flatMat, det_submatrix_equiv_self, ← hc.logdet, cholLogdet]
      simp only
      rw [← Fin.sum_univ_eq_sum_range fun i => Real.log (R.get (matCoord i i (coord p)))]
      congr 1
      refine Finset.sum_congr rfl fun i _ => ?_
      rw [matCoord_coord, flattened_get h.shapeU h3 hp]
      simp [triu]

/-! ## Solving -/

theorem exists_restrict {pu plates p : List Nat} (h : ∀ k, axisLen pu k = 1 ∨ axisLen pu k = axisLen plates k)
    (hp : p ∈ indices plates) : ∃ p' ∈ indices pu, coord p' = restrict pu (coord p) :=
  exists_index_of_valid (restrict_valid h (coord_valid hp))

theorem matrixOf_restrict {X : Arr ℝ} {pu s t p p' : List Nat} (hX : X.shape = pu ++ s ++ t) (hp' : p' ∈ indices pu)
    (h : coord p' = restrict pu (coord p)) : matrixOf X p s t = matrixOf X p' s t := by
  ext i j
  have hij := append_mem_indices (List.mem_toFinset.1 i.2) (List.mem_toFinset.1 j.2)
  rw [matrixOf_apply hX hp', matrixOf, of_apply, Arr.at, hX, List.append_assoc, List.append_assoc, restrict_append hij h,
    List.append_assoc]

theorem vectorOf_restrict {X : Arr ℝ} {pu s p p' : List Nat} (hX : X.shape = pu ++ s)
    (h : coord p' = restrict pu (coord p)) (i : MultiIndex s) : vectorOf X p s i = X.get (coord (p' ++ i)) := by
  rw [vectorOf, Arr.at, hX, restrict_append (List.mem_toFinset.1 i.2) h]

theorem cholSolveLoop_ok {R B : Arr ℝ} {pu pb : List Nat} {D : Nat} (hR : R.shape = pu ++ [D, D]) (hB : B.shape = pb ++ [D])
    (A : (Nat → Nat) → Matrix (Fin D) (Fin D) ℝ) (hA : ∀ p ∈ indices pu, IsChol (A (coord p)) (triu (matAt R D (coord p))))
    (hsub : ∀ k, axisLen pu k = 1 ∨ (k < pb.length ∧ axisLen pu k = axisLen pb k)) (hlen : pu.length ≤ pb.length + 1) :
    ∃ out plates, cholSolveLoop R B D = .ok out ∧ out.shape = plates ++ [D] ∧ IsBroadcast [pu, pb] plates ∧
      ∀ p ∈ indices plates, ∀ m : Fin D,
        ∑ d : Fin D, A (restrict pu (coord p)) m d * out.get (coord (p ++ [(d : Nat)])) = B.at (coord (p ++ [(m : Nat)])) := by
  let U : Arr (Matrix (Fin D) (Fin D) ℝ) := ⟨pu, fun p => triu (matAt R D (restrict pu p))⟩
  let A' : Arr (Matrix (Fin D) (Fin D) ℝ) := ⟨pu, fun p => A (restrict pu p)⟩
  have hr : ∀ c, ValidIn pu c → IsChol (A'.get c) (U.get c) := by
    intro c hc
    obtain ⟨p, hp, rfl⟩ := exists_index_of_valid hc
    simp only [A', U, restrict_coord hp]
    exact hA p hp
  have hget : ∀ c c', (∀ k < U.shape.length, c k = c' k) → U.get c = U.get c' := by
    intro c c' h
    have : restrict pu c = restrict pu c' := by
      funext k
      unfold restrict
      rcases Nat.lt_or_ge k pu.length with hk | hk
      · rw [h k hk]
      · rw [axisLen_of_ge hk]; simp
    simp only [U, this]
  obtain ⟨out, h1, h2, h3⟩ := C49_solves_partial A' U rfl hr hget B pb hB hsub hlen
  obtain ⟨o', h1', h2', _⟩ := C49_values_partial choSolveNat U B pb D hB _ h2 (by
      rcases h2.rank_le with h | ⟨s, hs, h⟩
      · omega
      · have hs' : s = U.shape ∨ s = pb := by simpa using hs
        rcases hs' with rfl | rfl
        · rw [← h]; exact hlen
        · omega)
  rw [h1] at h1'
  obtain rfl : out = o' := Except.ok.inj h1'
  refine ⟨out, out.shape.dropLast, ?_, h2', h2, fun p hp m => ?_⟩
  · rw [← h1]
    unfold cholSolveLoop
    rw [hR, take_two]
    rfl
  · have hD : 0 < D := lt_of_le_of_lt (Nat.zero_le _) m.2
    have hv : ValidIn out.shape (coord (p ++ [0])) := by
      rw [h2']
      exact coord_valid (append_mem_indices hp (mem_indices_cons.2 ⟨hD, mem_indices_nil.2 rfl⟩))
    have hup : ∀ d, Function.update (coord (p ++ [0])) 0 d = coord (p ++ [d]) := by
      intro d
      funext k
      rcases k with _ | k
      · rw [Function.update_self, coord_append']; simp [coord]
      · rw [Function.update_of_ne (by omega), coord_append', coord_append']; simp
    have hsucc : (fun k => coord (p ++ [0]) (k + 1)) = coord p := by
      funext k; rw [coord_append']; simp
    have := h3 _ hv m
    simp only [hup, hsucc] at this
    rw [← this]
    refine Finset.sum_congr rfl fun d _ => ?_
    congr 2
    simp only [Arr.at, A']
    rw [restrict_of_valid (restrict_valid (fun k => h2.fits k pu (by simp [U])) (coord_valid hp))]

theorem flattenVector_ok {X : Arr ℝ} {plates s : List Nat} {n : Nat} (hX : X.shape = plates ++ s) (hs : s.length = n + 1) :
    ∃ Y, flattenVector X (n + 1) = .ok Y ∧ Y.shape = plates ++ [s.prod] ∧
      ∀ p ∈ indices plates, ∀ i ∈ indices s, Y.get (coord (p ++ [rowMajor s i])) = X.get (coord (p ++ i)) := by
  unfold flattenVector
  split_ifs with h1
  · refine ⟨X, rfl, ?_, fun p _ i hi => ?_⟩
    · obtain ⟨d, rfl⟩ := List.length_eq_one_iff.1 (hs.trans h1)
      simp [hX]
    · conv_rhs => rw [(one_axis (hs.trans h1) hi).2]
  · obtain ⟨Y, h2, h3, h4⟩ := C76_flatten X plates [s] (by simp [hX]) (by
      intro b hb
      simp at hb
      subst hb
      rintro rfl
      simp at hs)
    refine ⟨Y, by simpa [hs] using h2, by simpa using h3, fun p hp i hi => ?_⟩
    simpa using h4 p hp [i] (.cons hi .nil)

theorem reshapeVector_ok {Y : Arr ℝ} {plates s : List Nat} {n : Nat} (hY : Y.shape = plates ++ [s.prod]) (hs : s.length = n + 1) :
    ∃ X, reshapeVector Y (n + 1) s = .ok X ∧ X.shape = plates ++ s ∧
      ∀ p ∈ indices plates, ∀ i ∈ indices s, X.get (coord (p ++ i)) = Y.get (coord (p ++ [rowMajor s i])) := by
  unfold reshapeVector
  split_ifs with h1
  · refine ⟨Y, rfl, ?_, fun p _ i hi => ?_⟩
    · obtain ⟨d, rfl⟩ := List.length_eq_one_iff.1 (hs.trans h1)
      simp [hY]
    · conv_lhs => rw [(one_axis (hs.trans h1) hi).2]
  · obtain ⟨X, h2, h3, h4⟩ := C76_reshape Y plates [s] (by simp [hY])
    refine ⟨X, h2, by simpa using h3, fun p hp i hi => ?_⟩
    simpa using h4 p hp [i] (.cons hi .nil)

/-- **C76** `chol_solve` solves the systems over several axes, for vectors on plates of which the plates of the factors are
sub-plates (as for one axis, `C49_shared_vector_refuted` shows that this is needed). -/
theorem C76_solve {A U b : Arr ℝ} {pu pb s : List Nat} (h : IsCholeskyOf A U pu s) (hs : s ≠ []) (hb : b.shape = pb ++ s)
    (hsub : ∀ k, axisLen pu k = 1 ∨ (k < pb.length ∧ axisLen pu k = axisLen pb k)) (hlen : pu.length ≤ pb.length + 1) :
    ∃ x plates, cholSolveAxes U b s.length = .ok x ∧ x.shape = plates ++ s ∧ IsBroadcast [pu, pb] plates ∧
      ∀ p ∈ indices plates, matrixOf A p s s *ᵥ vectorOf x p s = vectorOf b p s := by
  obtain ⟨n, hn⟩ : ∃ n, s.length = n + 1 := ⟨s.length - 1, by have := List.length_pos_iff.2 hs; omega⟩
  obtain ⟨R, h1, h2, h3⟩ := flattenMatrix_ok h.shapeU hn hn
  obtain ⟨F, f1, f2, f3⟩ := flattenMatrix_ok h.shapeA hn hn
  obtain ⟨B, b1, b2, b3⟩ := flattenVector_ok hb hn
  obtain ⟨out, plates, o1, o2, o3, o4⟩ := cholSolveLoop_ok h2 b2 (fun c => matAt F s.prod c) (fun p hp => by
    rw [matAt_flattened h.shapeA f3 hp, matAt_flattened h.shapeU h3 hp]
    exact h.isChol hp) hsub hlen
  obtain ⟨x, x1, x2, x3⟩ := reshapeVector_ok o2 hn
  refine ⟨x, plates, ?_, x2, o3, fun p hp => ?_⟩
  · unfold cholSolveAxes
    have e : trailingShape U.shape (n + 1) = s := by rw [h.shapeU, ← hn]; exact trailing_append _ _
    rw [hn, if_neg (by omega), h1]
    simp only [bind, Except.bind]
    rw [b1]
    simp only
    rw [h2, (axisLen_two _ _ _).1, o1, e]
    exact x1
  · obtain ⟨pa, ha, ha'⟩ := exists_restrict (fun k => o3.fits k pu (by simp)) hp
    obtain ⟨pc, hc, hc'⟩ := exists_restrict (fun k => o3.fits k pb (by simp)) hp
    funext i
    have hi := List.mem_toFinset.1 i.2
    have := o4 p hp (rowEquiv s i)
    rw [matrixOf_restrict h.shapeA ha ha', vectorOf_restrict hb hc']
    rw [← b3 pc hc _ hi]
    have eB : B.at (coord (p ++ [((rowEquiv s i : Fin _) : Nat)])) = B.get (coord (pc ++ [rowMajor s i])) := by
      rw [Arr.at, b2, restrict_append (mem_indices_cons.2 ⟨(rowEquiv s i).2, mem_indices_nil.2 rfl⟩) hc']
      rfl
    rw [← eB, ← this, mulVec, dotProduct, ← (rowEquiv s).sum_comp]
    refine Finset.sum_congr rfl fun j _ => ?_
    have hj := List.mem_toFinset.1 j.2
    congr 1
    · rw [← ha', matAt_flattened h.shapeA f3 ha, flatMat]
      simp
    · rw [vectorOf_restrict x2 (restrict_coord hp).symm, x3 p hp _ hj]
      rfl

/-- broadcast shapes with a last axis that is unit in the first one -/
theorem isBroadcast_last {pu pb r : List Nat} {K : Nat} (h : IsBroadcast [pu ++ [1], pb ++ [K]] r) :
    ∃ plates, r = plates ++ [K] ∧ IsBroadcast [pu, pb] plates := by
  have hr := h.rank_ge (pb ++ [K]) (by simp)
  rcases List.eq_nil_or_concat r with rfl | ⟨pl, k, rfl⟩
  · simp at hr
  rw [List.concat_eq_append] at h hr
  have hk : k = K := by
    have e : axisLen (pl ++ [k]) 0 = k := by rw [axisLen_append_one]; simp
    have eK : axisLen (pb ++ [K]) 0 = K := by rw [axisLen_append_one]; simp
    have e1 : axisLen (pu ++ [1]) 0 = 1 := by rw [axisLen_append_one]; simp
    have hf := h.fits 0 (pb ++ [K]) (by simp)
    have ha := h.attained 0
    simp only [List.mem_cons, List.not_mem_nil, or_false, exists_eq_or_imp, exists_eq_left, e, eK, e1] at hf ha
    omega
  subst hk
  have hsh : ∀ (q : List Nat) (x k : Nat), axisLen (q ++ [x]) (k + 1) = axisLen q k := by
    intro q x k; rw [axisLen_append_one]; simp
  refine ⟨pl, by rw [List.concat_eq_append], ?_, ?_, ?_, ?_⟩
  · intro s hs
    have hs' : s = pu ∨ s = pb := by simpa using hs
    have h1 := h.rank_ge (pu ++ [1]) (by simp)
    simp at h1 hr
    rcases hs' with rfl | rfl <;> omega
  · rcases h.rank_le with h1 | ⟨s, hs, h1⟩
    · simp at h1
    · have hs' : s = pu ++ [1] ∨ s = pb ++ [k] := by simpa using hs
      right
      rcases hs' with rfl | rfl
      · exact ⟨pu, by simp, by simpa using h1⟩
      · exact ⟨pb, by simp, by simpa using h1⟩
  · intro j s hs
    have hs' : s = pu ∨ s = pb := by simpa using hs
    rcases hs' with rfl | rfl
    · have := h.fits (j + 1) (s ++ [1]) (by simp)
      simpa only [hsh] using this
    · have := h.fits (j + 1) (s ++ [k]) (by simp)
      simpa only [hsh] using this
  · intro j
    have := h.attained (j + 1)
    simpa only [List.mem_cons, List.not_mem_nil, or_false, exists_eq_or_imp, exists_eq_left, hsh] using this

theorem swapLast_get {X : Arr ℝ} (p : List Nat) (a b : Nat) :
    (swapLast X).get (coord (p ++ [a, b])) = X.get (coord (p ++ [b, a])) := by
  rw [swapLast, ← matCoord_coord, ← matCoord_coord]
  rfl

theorem swapLast_shape {X : Arr ℝ} {p : List Nat} {a b : Nat} (h : X.shape = p ++ [a, b]) : (swapLast X).shape = p ++ [b, a] := by
  rw [swapLast, h, take_two, (axisLen_two _ _ _).1, (axisLen_two _ _ _).2]

/-- **C76** `chol_solve(matrix=True)` solves for all columns of matrices over several axes. -/
theorem C76_solve_matrix {A U b : Arr ℝ} {pu pb s t : List Nat} (h : IsCholeskyOf A U pu s) (hs : s ≠ [])
    (ht : t.length = s.length) (hb : b.shape = pb ++ s ++ t)
    (hsub : ∀ k, axisLen pu k = 1 ∨ (k < pb.length ∧ axisLen pu k = axisLen pb k)) (hlen : pu.length ≤ pb.length + 1) :
    ∃ x plates, cholSolveMatrixAxes U b s.length = .ok x ∧ x.shape = plates ++ s ++ t ∧ IsBroadcast [pu, pb] plates ∧
      ∀ p ∈ indices plates, matrixOf A p s s * matrixOf x p s t = matrixOf b p s t := by
  obtain ⟨n, hn⟩ : ∃ n, s.length = n + 1 := ⟨s.length - 1, by have := List.length_pos_iff.2 hs; omega⟩
  have hnt := ht.trans hn
  obtain ⟨R, h1, h2, h3⟩ := flattenMatrix_ok h.shapeU hn hn
  obtain ⟨F, f1, f2, f3⟩ := flattenMatrix_ok h.shapeA hn hn
  obtain ⟨B, b1, b2, b3⟩ := flattenMatrix_ok hb hn hnt
  have hR3 : (addAxis3 R).shape = (pu ++ [1]) ++ [s.prod, s.prod] := by
    rw [addAxis3, h2, take_two]; simp
  have hB3 : (swapLast B).shape = (pb ++ [t.prod]) ++ [s.prod] := by
    rw [swapLast_shape b2]; simp
  have hc3 : ∀ (q : List Nat) (a : Nat), (fun k => coord (q ++ [a]) (k + 1)) = coord q := by
    intro q a; funext k; rw [coord_append']; simp
  have hmat : ∀ c, matAt (addAxis3 R) s.prod c = matAt R s.prod (fun k => c (k + 1)) := by
    intro c; rfl
  obtain ⟨out, pl', o1, o2, o3, o4⟩ := cholSolveLoop_ok hR3 hB3 (fun c => matAt F s.prod fun k => c (k + 1))
    (fun q hq => by
      obtain ⟨p, a, rfl, hp⟩ : ∃ p a, q = p ++ [a] ∧ p ∈ indices pu := by
        have hl := length_of_mem_indices hq
        rcases List.eq_nil_or_concat q with rfl | ⟨p, a, rfl⟩
        · simp at hl
        · rw [List.concat_eq_append] at hq hl ⊢
          refine ⟨p, a, rfl, ?_⟩
          have hv := coord_valid hq
          have hl' : p.length = pu.length := by simpa using hl
          obtain ⟨r, hr, hr'⟩ := exists_index_of_valid (s := pu) (c := coord p) (fun k => by
            have := hv (k + 1)
            rw [coord_append', axisLen_append_one] at this
            simpa using this)
          have hrl := length_of_mem_indices hr
          have : r = p := by
            have e : r.reverse = p.reverse := by
              refine List.ext_getElem (by simp [hrl, hl']) fun k hk hk' => ?_
              have := congrFun hr' k
              simp only [coord, List.getD_eq_getElem?_getD] at this
              rwa [List.getElem?_eq_getElem hk, List.getElem?_eq_getElem hk'] at this
            simpa using congrArg List.reverse e
          rwa [this] at hr
      rw [hmat, hc3, matAt_flattened h.shapeA f3 hp, matAt_flattened h.shapeU h3 hp]
      exact h.isChol hp)
    (fun k => by
      rw [axisLen_append_one, axisLen_append_one]
      rcases k with _ | k
      · left; rfl
      · simpa using hsub k) (by simpa using hlen)
  obtain ⟨plates, rfl, o5⟩ := isBroadcast_last o3
  have o6 : (swapLast out).shape = plates ++ [s.prod, t.prod] := swapLast_shape (by simpa using o2)
  obtain ⟨x, x1, x2, x3⟩ := reshapeMatrix_ok o6 hn hnt
  refine ⟨x, plates, ?_, x2, o5, fun p hp => ?_⟩
  · unfold cholSolveMatrixAxes
    have e : trailingShape U.shape (n + 1) = s := by rw [h.shapeU, ← hn]; exact trailing_append _ _
    have e' : trailingShape b.shape (n + 1) = t := by rw [hb, ← hnt]; exact trailing_append _ _
    rw [hn, if_neg (by omega), h1]
    simp only [bind, Except.bind]
    rw [b1]
    simp only
    rw [hR3, (axisLen_two _ _ _).1, o1, e, e']
    exact x1
  · obtain ⟨pa, ha, ha'⟩ := exists_restrict (fun k => o5.fits k pu (by simp)) hp
    obtain ⟨pc, hc, hc'⟩ := exists_restrict (fun k => o5.fits k pb (by simp)) hp
    ext i l
    have hi := List.mem_toFinset.1 i.2
    have hl := List.mem_toFinset.1 l.2
    have hlt := rowMajor_lt hl
    have hpk : p ++ [rowMajor t l] ∈ indices (plates ++ [t.prod]) :=
      append_mem_indices hp (mem_indices_cons.2 ⟨hlt, mem_indices_nil.2 rfl⟩)
    have := o4 _ hpk (rowEquiv s i)
    rw [matrixOf_restrict h.shapeA ha ha', matrixOf_restrict hb hc hc', matrixOf_apply hb hc, ← b3 pc hc _ hi _ hl]
    have eB : (swapLast B).at (coord (p ++ [rowMajor t l] ++ [((rowEquiv s i : Fin _) : Nat)]))
        = B.get (coord (pc ++ [rowMajor s i, rowMajor t l])) := by
      rw [Arr.at, hB3, List.append_assoc, List.append_assoc, restrict_append (p' := pc) _ hc', ← swapLast_get]
      · rfl
      · exact append_mem_indices (mem_indices_cons.2 ⟨hlt, mem_indices_nil.2 rfl⟩)
          (mem_indices_cons.2 ⟨(rowEquiv s i).2, mem_indices_nil.2 rfl⟩)
    rw [← eB, ← this, mul_apply, ← (rowEquiv s).sum_comp]
    refine Finset.sum_congr rfl fun j _ => ?_
    have hj := List.mem_toFinset.1 j.2
    congr 1
    · have er : (fun k => restrict (pu ++ [1]) (coord (p ++ [rowMajor t l])) (k + 1)) = restrict pu (coord p) := by
        funext k
        simp only [restrict, axisLen_append_one, coord_append']
        simp
      rw [er, ← ha', matAt_flattened h.shapeA f3 ha, flatMat]
      simp
    · rw [matrixOf_apply x2 hp, x3 p hp _ hj _ hl, swapLast_get]
      simp [rowEquiv_val]

/-- **C76** Over no axes the equations are solved element by element, with full broadcasting. -/
theorem C76_solve_no_axes {A U b : Arr ℝ} {pu r : List Nat} (h : IsCholeskyOf A U pu []) (hr : IsBroadcast [b.shape, pu] r) :
    ∃ x, cholSolveAxes U b 0 = .ok x ∧ cholSolveMatrixAxes U b 0 = .ok x ∧ x.shape = r ∧
      ∀ c, ValidIn r c → A.at c * x.get c = b.at c := by
  have hA' : A.shape = pu := by simpa using h.shapeA
  have hU' : U.shape = pu := by simpa using h.shapeU
  have hb := (broadcastedShape_ok _ _).2 hr
  refine ⟨⟨r, fun c => b.at c / U.at c / U.at c⟩, ?_, ?_, rfl, fun c hc => ?_⟩
  · unfold cholSolveAxes; rw [if_pos rfl, hU', hb]; rfl
  · unfold cholSolveMatrixAxes; rw [if_pos rfl, hU', hb]; rfl
  · obtain ⟨q, hq, rfl⟩ := exists_index_of_valid hc
    obtain ⟨p, hp, hp'⟩ := exists_restrict (fun k => hr.fits k pu (by simp)) hq
    have e := congrFun (congrFun (h.eq p hp) default) default
    simp only [mul_apply, Fintype.sum_unique, transpose_apply, upperOf, of_apply, le_refl, if_true] at e
    have hpos := h.pos p hp default
    rw [matrixOf_nil U p hU' hp] at hpos e
    rw [matrixOf_nil A p hA' hp] at e
    simp only [Arr.at, hA', hU', ← hp', ← e]
    field_simp

/-- matrices over two axes of length two on three plates: `2 + p` times the identity -/
def demoA : Arr ℝ := ⟨[3, 2, 2, 2, 2], fun c => if c 1 = c 3 ∧ c 0 = c 2 then 2 + (c 4 : ℝ) else 0⟩

theorem demoA_matrix {p : List Nat} (hp : p ∈ indices [3]) : matrixOf demoA p [2, 2] [2, 2] = (2 + (p.headD 0 : ℝ)) • 1 := by
  obtain ⟨a, q, rfl, _, hq⟩ := mem_indices_cons'.1 hp
  obtain rfl := mem_indices_nil.1 hq
  ext i j
  rw [matrixOf_apply (plates := [3]) rfl hp]
  obtain ⟨i, hi⟩ := i
  obtain ⟨j, hj⟩ := j
  obtain ⟨i0, i', rfl, _, hi'⟩ := mem_indices_cons'.1 (List.mem_toFinset.1 hi)
  obtain ⟨i1, i', rfl, _, hi'⟩ := mem_indices_cons'.1 hi'
  obtain rfl := mem_indices_nil.1 hi'
  obtain ⟨j0, j', rfl, _, hj'⟩ := mem_indices_cons'.1 (List.mem_toFinset.1 hj)
  obtain ⟨j1, j', rfl, _, hj'⟩ := mem_indices_cons'.1 hj'
  obtain rfl := mem_indices_nil.1 hj'
  simp only [Matrix.smul_apply, one_apply, demoA]
  simp [coord, eq_comm]

theorem demoA_posDef {p : List Nat} (hp : p ∈ indices [3]) : (matrixOf demoA p [2, 2] [2, 2]).PosDef := by
  rw [demoA_matrix hp]
  exact PosDef.one.smul (by positivity)

/-- the inverse and the log determinant of these matrices -/
example : ∃ U V l, cholAxes demoA 2 = .ok U ∧ cholInvAxes U 2 = .ok V ∧ cholLogdetAxes U 2 = .ok l ∧
    matrixOf V [1] [2, 2] [2, 2] = (1 / 3 : ℝ) • 1 ∧ l.get (coord [1]) = Real.log 81 := by
  obtain ⟨U, h1, h2⟩ := C76_chol demoA [3] [2, 2] rfl fun p hp => demoA_posDef hp
  obtain ⟨V, h3, _, h4⟩ := C76_inverse h2
  obtain ⟨l, h5, _, h6⟩ := C76_logdet h2
  have hp : [1] ∈ indices [3] := by decide
  refine ⟨U, V, l, h1, h3, h5, ?_, ?_⟩
  · have := h4 [1] hp
    rw [demoA_matrix hp, smul_mul_assoc, Matrix.one_mul] at this
    rw [← this, smul_smul]
    norm_num
  · rw [h6 [1] hp, demoA_matrix hp, det_smul, det_one, mul_one]
    congr 1
    have : Fintype.card (MultiIndex [2, 2]) = 4 := by decide
    rw [this]
    norm_num

/-- vectors on the same plates; `x` is the vector divided by `2 + p` -/
example (b : Arr ℝ) (hb : b.shape = [3, 2, 2]) : ∃ U x, cholAxes demoA 2 = .ok U ∧ cholSolveAxes U b 2 = .ok x ∧
    (3 : ℝ) • vectorOf x [1] [2, 2] = vectorOf b [1] [2, 2] := by
  obtain ⟨U, h1, h2⟩ := C76_chol demoA [3] [2, 2] rfl fun p hp => demoA_posDef hp
  obtain ⟨x, plates, h3, h4, h5, h6⟩ := C76_solve h2 (by simp) (pb := [3]) hb (fun k => by
    rcases k with _ | k
    · right; exact ⟨by simp, rfl⟩
    · left; simp [axisLen]) (by simp)
  obtain rfl : plates = [3] := by
    have hl : plates.length = 1 := by
      have := h5.rank_ge [3] (by simp)
      rcases h5.rank_le with h | ⟨s, hs, h⟩
      · simp at this; omega
      · simp at hs; subst hs; simpa using h.symm
    obtain ⟨d, rfl⟩ := List.length_eq_one_iff.1 hl
    have := h5.fits 0 [3] (by simp)
    simp [axisLen] at this
    rw [this]
  refine ⟨U, x, h1, h3, ?_⟩
  have := h6 [1] (by decide)
  rw [demoA_matrix (by decide)] at this
  rw [← this, smul_mulVec, one_mulVec]
  norm_num

/-- matrices on the same plates -/
example (b : Arr ℝ) (hb : b.shape = [3, 2, 2, 4, 5]) : ∃ U x plates, cholAxes demoA 2 = .ok U ∧
    cholSolveMatrixAxes U b 2 = .ok x ∧ x.shape = plates ++ [2, 2] ++ [4, 5] ∧ ∀ p ∈ indices plates,
      matrixOf demoA p [2, 2] [2, 2] * matrixOf x p [2, 2] [4, 5] = matrixOf b p [2, 2] [4, 5] := by
  obtain ⟨U, h1, h2⟩ := C76_chol demoA [3] [2, 2] rfl fun p hp => demoA_posDef hp
  obtain ⟨x, plates, h3, h4, h5, h6⟩ := C76_solve_matrix (t := [4, 5]) h2 (by simp) rfl (pb := [3]) hb (fun k => by
    rcases k with _ | k
    · right; exact ⟨by simp, rfl⟩
    · left; simp [axisLen]) (by simp)
  exact ⟨U, x, plates, h1, h3, h4, h6⟩

/-- a zero matrix over two axes -/
example : cholAxes (⟨[2, 2, 2, 2], fun _ => 0⟩ : Arr ℝ) 2 = .error .exception := by
  have h0 : ∀ p, matrixOf (⟨[2, 2, 2, 2], fun _ => 0⟩ : Arr ℝ) p [2, 2] [2, 2] = 0 := fun p => rfl
  refine C76_chol_raises _ [] [2, 2] rfl (by simp) (fun p _ => by rw [h0]; exact isSymm_zero) ⟨[], by decide, fun h => ?_⟩
  have := h.diag_pos (i := ⟨[0, 0], by decide⟩)
  rw [h0] at this
  simp at this

end Verif
