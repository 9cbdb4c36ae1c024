import Verif.Lemmas.Einsum

/-! # Helper lemmas: `np.reshape` -/

namespace Verif
open Spec Function

/-- Valid coordinate for a shape given last axis first. -/
def ValidR (r : List Nat) (c : Nat → Nat) : Prop := ∀ k, c k < r[k]?.getD 1

theorem validIn_iff (s : List Nat) (c : Nat → Nat) : ValidIn s c ↔ ValidR s.reverse c := Iff.rfl

theorem ValidR.tail {d : Nat} {ds : List Nat} {c : Nat → Nat} (h : ValidR (d :: ds) c) :
    ValidR ds (fun k => c (k + 1)) := fun k => by simpa using h (k + 1)

theorem flatR_lt {r : List Nat} {c : Nat → Nat} (h : ValidR r c) : flatR r c < r.prod := by
  induction r generalizing c with
  | nil => simp [flatR]
  | cons d ds ih =>
    have h0 : c 0 < d := by simpa using h 0
    have := ih h.tail
    simp only [flatR, List.prod_cons]
    calc c 0 + d * flatR ds _ < d + d * flatR ds (fun k => c (k + 1)) := by omega
      _ = d * (flatR ds (fun k => c (k + 1)) + 1) := by rw [Nat.mul_add]; omega
      _ ≤ d * ds.prod := Nat.mul_le_mul_left _ this

theorem unflatR_flatR {r : List Nat} {c : Nat → Nat} (h : ValidR r c) : unflatR r (flatR r c) = c := by
  induction r generalizing c with
  | nil =>
    funext k
    have := h k
    simp at this
    simp [unflatR, this]
  | cons d ds ih =>
    have h0 : c 0 < d := by simpa using h 0
    funext k
    cases k with
    | zero =>
      simp only [unflatR, flatR]
      rw [Nat.add_mul_mod_self_left, Nat.mod_eq_of_lt h0]
    | succ k =>
      simp only [unflatR, flatR]
      rw [Nat.add_mul_div_left _ _ (by omega), Nat.div_eq_of_lt h0, Nat.zero_add, ih h.tail]

theorem unflatR_valid {r : List Nat} {n : Nat} (h : n < r.prod) : ValidR r (unflatR r n) := by
  induction r generalizing n with
  | nil => intro k; simp [unflatR]
  | cons d ds ih =>
    simp only [List.prod_cons] at h
    have hd : 0 < d := by
      rcases Nat.eq_zero_or_pos d with h0 | h0
      · subst h0; simp at h
      · exact h0
    intro k
    cases k with
    | zero => simp [unflatR, Nat.mod_lt _ hd]
    | succ k =>
      simp only [unflatR, List.getElem?_cons_succ]
      exact ih (Nat.div_lt_of_lt_mul h) k

theorem flatR_unflatR {r : List Nat} {n : Nat} (h : n < r.prod) : flatR r (unflatR r n) = n := by
  induction r generalizing n with
  | nil => simp at h; simp [flatR, h]
  | cons d ds ih =>
    simp only [List.prod_cons] at h
    simp only [flatR, unflatR]
    rw [ih (Nat.div_lt_of_lt_mul h)]
    exact Nat.mod_add_div n d

/-- Reading a reshaped array: if `c` (valid in the new shape) and `c'` (valid in the old shape) have
the same flat position, the values agree. -/
theorem npReshape_get {α : Type _} {X Y : Arr α} {s : List Nat} (h : npReshape X s = .ok Y) :
    Y.shape = s ∧ ∀ c c', ValidIn X.shape c' →
      flatR s.reverse c = flatR X.shape.reverse c' → Y.get c = X.get c' := by
  unfold npReshape at h
  split at h
  · cases h
    refine ⟨rfl, ?_⟩
    intro c c' hc' he
    simp only
    rw [he, unflatR_flatR ((validIn_iff _ _).1 hc')]
  · cases h

/-- Drop the coordinates of the axes not selected by `q`. -/
def compressC {β : Type _} (q : β → Bool) : List β → (Nat → Nat) → (Nat → Nat)
  | [], _ => fun _ => 0
  | p :: ps, c =>
    if q p then fun k => match k with
      | 0 => c 0
      | k + 1 => compressC q ps (fun k => c (k + 1)) k
    else compressC q ps (fun k => c (k + 1))

theorem flatR_compress {β : Type _} (q : β → Bool) (g : β → Nat) (ps : List β) (c : Nat → Nat)
    (h : ValidR (ps.map fun p => if q p then g p else 1) c) :
    flatR (ps.map fun p => if q p then g p else 1) c
      = flatR ((ps.filter q).map g) (compressC q ps c) := by
  induction ps generalizing c with
  | nil => rfl
  | cons p ps ih =>
    rw [List.map_cons] at h
    have h0 := h 0
    have ih' := ih _ h.tail
    simp only [List.map_cons, List.filter_cons, compressC, flatR]
    by_cases hq : q p = true
    · simp only [hq, if_true, List.map_cons, flatR]
      rw [ih']
    · simp only [hq, Bool.false_eq_true, if_false]
      simp [hq] at h0
      rw [h0, ih']
      simp

theorem compress_valid {β : Type _} (q : β → Bool) (g : β → Nat) (ps : List β) (c : Nat → Nat)
    (h : ValidR (ps.map fun p => if q p then g p else 1) c) :
    ValidR ((ps.filter q).map g) (compressC q ps c) := by
  induction ps generalizing c with
  | nil => intro k; simp [compressC]
  | cons p ps ih =>
    rw [List.map_cons] at h
    have ih' := ih _ h.tail
    have h0 := h 0
    by_cases hq : q p = true
    · intro k
      simp only [hq, if_true, List.filter_cons, List.map_cons, compressC]
      cases k with
      | zero => simpa [hq] using h0
      | succ k => simpa using ih' k
    · simp only [compressC, hq, Bool.false_eq_true, if_false, List.filter_cons]
      exact ih'

theorem compress_count {β : Type _} (q : β → Bool) (ps : List β) (c : Nat → Nat) (k : Nat)
    (hk : k < ps.length) (hq : q ps[k] = true) :
    compressC q ps c ((ps.take k).countP q) = c k := by
  induction ps generalizing c k with
  | nil => simp at hk
  | cons p ps ih =>
    cases k with
    | zero =>
      simp at hq
      simp [compressC, hq]
    | succ k =>
      simp only [List.length_cons, List.getElem_cons_succ] at hk hq
      have := ih (fun k => c (k + 1)) k (by omega) hq
      simp only [List.take_succ_cons, List.countP_cons, compressC]
      by_cases hp : q p = true
      · simp only [hp, if_true]
        exact this
      · simp only [hp, Bool.false_eq_true, if_false]
        exact this

theorem idxOf_filter_append {β : Type _} [DecidableEq β] (q : β → Bool) (a b : List β) (l : β) (ha : l ∉ a)
    (hq : q l = true) :
    ((a ++ l :: b).filter q).length - 1 - ((a ++ l :: b).filter q).idxOf l = b.countP q := by
  rw [List.filter_append, List.filter_cons, if_pos hq]
  rw [List.idxOf_append_of_notMem (fun h => ha (List.mem_of_mem_filter h))]
  rw [List.idxOf_cons_self, List.length_append, List.length_cons, List.countP_eq_length_filter]
  omega

theorem range_split (M k : Nat) (hk : k < M) :
    List.range M = List.range (M - 1 - k) ++ (M - 1 - k) :: (List.range M).drop (M - k) := by
  have h1 : List.range M = (List.range M).take (M - 1 - k) ++ (List.range M).drop (M - 1 - k) :=
    (List.take_append_drop _ _).symm
  have h2 : (List.range M).drop (M - 1 - k) = (M - 1 - k) :: (List.range M).drop (M - k) := by
    rw [List.drop_eq_getElem_cons (by simp; omega)]
    simp
    omega
  rw [h2, List.take_range, Nat.min_eq_left (by omega)] at h1
  exact h1

theorem keepdimsShape_eq (out : List Nat) (g : Nat → Nat) (ks : List Nat) :
    keepdimsShape out ks ((ks.filter (· ∈ out)).map g)
      = .ok (ks.map fun k => if k ∈ out then g k else 1) := by
  induction ks with
  | nil => rfl
  | cons k ks ih =>
    by_cases h : k ∈ out
    · simp [keepdimsShape, h, ih, bind, Except.bind, pure, Except.pure]
    · simp [keepdimsShape, h, ih, bind, Except.bind, pure, Except.pure]

theorem prod_filter_ite {β : Type _} (q : β → Bool) (g : β → Nat) (ks : List β) :
    ((ks.filter q).map g).prod = (ks.map fun k => if q k then g k else 1).prod := by
  induction ks with
  | nil => rfl
  | cons k ks ih =>
    by_cases h : q k = true
    · simp [h, ih]
    · simp [h, ih]

/-- Coordinates after restoring the summed axes as unit axes. -/
theorem keepdims_reshape {α : Type _} {y : Arr α} {B out : List Nat}
    (hsort : out = (List.range B.length).filter (· ∈ out))
    (hy : y.shape = out.map (fun l => axisLen B (B.length - 1 - l))) :
    ∃ z, (do npReshape y (← keepdimsShape out (List.range B.length) y.shape)) = .ok z ∧
      z.shape = (List.range B.length).map
        (fun p => if p ∈ out then axisLen B (B.length - 1 - p) else 1) ∧
      ∀ c, ValidIn z.shape c → ∃ c', z.get c = y.get c' ∧
        ∀ k, k < B.length → B.length - 1 - k ∈ out →
          c' (out.length - 1 - out.idxOf (B.length - 1 - k)) = c k := by
  set g : Nat → Nat := fun l => axisLen B (B.length - 1 - l) with hg
  set q : Nat → Bool := fun p => decide (p ∈ out) with hq
  have hys : y.shape = ((List.range B.length).filter q).map g := by
    rw [hy]; congr 1
  have hs : keepdimsShape out (List.range B.length) y.shape
      = .ok ((List.range B.length).map fun p => if p ∈ out then g p else 1) := by
    rw [hys]; exact keepdimsShape_eq out g _
  have hprod : ((List.range B.length).map fun p => if p ∈ out then g p else 1).prod
      = y.shape.prod := by
    rw [hys, prod_filter_ite]
    simp [hq]
  have hre : npReshape y ((List.range B.length).map fun p => if p ∈ out then g p else 1)
      = .ok { shape := (List.range B.length).map fun p => if p ∈ out then g p else 1
              get := fun c => y.get (unflatR y.shape.reverse
                (flatR ((List.range B.length).map
                  fun p => if p ∈ out then g p else 1).reverse c)) } := by
    unfold npReshape; rw [if_pos hprod]
  refine ⟨_, by rw [hs]; exact hre, rfl, ?_⟩
  intro c hc
  have hc2 : ValidR ((List.range B.length).reverse.map fun p => if q p then g p else 1) c := by
    have := (validIn_iff _ _).1 hc
    rw [← List.map_reverse] at this
    simpa [hq] using this
  refine ⟨compressC q (List.range B.length).reverse c, ?_, ?_⟩
  · apply (npReshape_get hre).2
    · rw [validIn_iff, hys, ← List.map_reverse, ← List.filter_reverse]
      exact compress_valid q g _ c hc2
    · rw [hys, ← List.map_reverse, ← List.map_reverse, ← List.filter_reverse]
      rw [← flatR_compress q g _ c hc2]
      simp [hq]
  · intro k hk hko
    have h1 : out.length - 1 - out.idxOf (B.length - 1 - k)
        = ((List.range B.length).drop (B.length - k)).countP q := by
      have h2 := idxOf_filter_append q (List.range (B.length - 1 - k))
        ((List.range B.length).drop (B.length - k)) (B.length - 1 - k) (by simp) (by simpa [hq])
      rw [← range_split _ _ hk] at h2
      rw [← h2]
      have : (List.range B.length).filter q = out := hsort.symm
      rw [this]
    rw [h1]
    have h3 := compress_count q (List.range B.length).reverse c k (by simpa using hk)
      (by simp [hq]; exact hko)
    rw [List.take_reverse, List.countP_reverse, List.length_range] at h3
    exact h3

end Verif
