import Verif.Model.Slice
import Verif.Lemmas.Indexing
import Verif.Lemmas.Message
import Verif.Props.Utils

/-! # Helper lemmas: the `Slice` node -/

namespace Verif
open Spec

/-! ## Slices of one axis -/

theorem sliceLenN_spec {a b k : Int} (hk : k ≠ 0) (i : Nat) :
    i < sliceLenN a b k ↔ if 0 < k then a + i * k < b else b < a + i * k := by
  obtain ⟨q, hq, hq2⟩ := ceildiv_spec (b - a) k hk
  have hq' : q = -(Int.fdiv (-(b - a)) k) := by
    unfold ceildiv pyFloorDiv at hq
    rw [if_neg hk] at hq
    simp only [bind, Except.bind, pure, Except.pure] at hq
    exact (Except.ok.inj hq).symm
  unfold sliceLenN
  rw [← hq']
  have h2 : i < (max 0 q).toNat ↔ (i : Int) < q := by omega
  rw [h2, hq2 i]
  split <;> constructor <;> intro h <;> linarith

theorem sliceIndices_facts {s : PySlice} {d : Nat} {a b k : Int} (h : sliceIndices s d = .ok (a, b, k)) :
    k ≠ 0 ∧ (0 < k → 0 ≤ a ∧ a ≤ d ∧ 0 ≤ b ∧ b ≤ d) ∧ (k < 0 → -1 ≤ a ∧ a < d ∧ -1 ≤ b ∧ b < d) := by
  unfold sliceIndices at h
  by_cases hk : s.step.getD 1 = 0
  · simp only [hk, if_true] at h
    cases h
  · simp only [hk, if_false] at h
    injection h with h
    injection h with ha h
    injection h with hb h
    subst h
    refine ⟨hk, fun h0 => ?_, fun h0 => ?_⟩
    · have hn : ¬ s.step.getD 1 < 0 := by omega
      simp only [hn, if_false] at ha hb
      have h1 : 0 ≤ a ∧ a ≤ d := by
        rw [← ha]
        cases s.start with
        | none => simp
        | some x => simp only [sliceBound]; split <;> omega
      have h2 : 0 ≤ b ∧ b ≤ d := by
        rw [← hb]
        cases s.stop with
        | none => simp
        | some x => simp only [sliceBound]; split <;> omega
      exact ⟨h1.1, h1.2, h2.1, h2.2⟩
    · simp only [h0, if_true] at ha hb
      have h1 : -1 ≤ a ∧ a < d := by
        rw [← ha]
        cases s.start with
        | none => simp
        | some x => simp only [sliceBound]; split <;> omega
      have h2 : -1 ≤ b ∧ b < d := by
        rw [← hb]
        cases s.stop with
        | none => simp; omega
        | some x => simp only [sliceBound]; split <;> omega
      exact ⟨h1.1, h1.2, h2.1, h2.2⟩

/-- The items of a slice. -/
theorem isItem_iff {s : PySlice} {d : Nat} {a b k : Int} (h : sliceIndices s d = .ok (a, b, k)) (i t : Nat) :
    IsItem s d i t ↔ i < sliceLenN a b k ∧ (t : Int) = a + i * k := by
  have hk := (sliceIndices_facts h).1
  rw [sliceLenN_spec hk]
  constructor
  · rintro ⟨a', b', k', h', ht, hb⟩
    rw [h] at h'
    injection h' with h'
    injection h' with h1 h'
    injection h' with h2 h3
    subst h1 h2 h3
    rw [ht] at hb
    exact ⟨hb, ht⟩
  · rintro ⟨hb, ht⟩
    exact ⟨a, b, k, h, ht, by rw [ht]; exact hb⟩

/-- Positions of a slice are positions of the axis. -/
theorem item_range {s : PySlice} {d : Nat} {a b k : Int} (h : sliceIndices s d = .ok (a, b, k)) {i : Nat}
    (hi : i < sliceLenN a b k) : 0 ≤ a + i * k ∧ a + i * k < d := by
  obtain ⟨hk, hp, hn⟩ := sliceIndices_facts h
  rw [sliceLenN_spec hk] at hi
  rcases lt_or_gt_of_ne hk with h0 | h0
  · rw [if_neg (by omega)] at hi
    have := hn h0
    have : (i : Int) * k ≤ 0 := by nlinarith
    omega
  · rw [if_pos h0] at hi
    have := hp h0
    have : 0 ≤ (i : Int) * k := by positivity
    omega

theorem hasItems_iff {s : PySlice} {d : Nat} {a b k : Int} (h : sliceIndices s d = .ok (a, b, k)) (n : Nat) :
    HasItems s d n ↔ n = sliceLenN a b k := by
  have h1 : ∀ i, (∃ t, IsItem s d i t) ↔ i < sliceLenN a b k := by
    intro i
    constructor
    · rintro ⟨t, ht⟩
      exact ((isItem_iff h i t).1 ht).1
    · intro hi
      obtain ⟨h2, _⟩ := item_range h hi
      exact ⟨(a + i * k).toNat, (isItem_iff h i _).2 ⟨hi, by omega⟩⟩
  unfold HasItems
  simp only [h1]
  constructor
  · intro hh
    rcases Nat.lt_trichotomy n (sliceLenN a b k) with h2 | h2 | h2
    · exact absurd ((hh n).2 h2) (by omega)
    · exact h2
    · exact absurd ((hh _).1 h2) (by omega)
  · rintro rfl i
    rfl

/-- Normalising a good slice again changes nothing. -/
theorem npSlice_self {s : PySlice} {d : Nat} {a b k : Int} (h : sliceIndices s d = .ok (a, b, k))
    (hlen : 0 < sliceLenN a b k) (hgood : 0 < k ∨ 0 ≤ b) :
    npSlice a b k d = .ok (a, sliceLenN a b k, k) := by
  obtain ⟨hk, hp, hn⟩ := sliceIndices_facts h
  have h0 := item_range h hlen
  rw [Nat.cast_zero, Int.zero_mul, Int.add_zero] at h0
  have : sliceIndices ⟨some a, some b, some k⟩ d = .ok (a, b, k) := by
    unfold sliceIndices
    simp only [Option.getD_some, hk, if_false]
    rcases lt_or_gt_of_ne hk with h1 | h1
    · have := hn h1
      simp only [h1, if_true, sliceBound]
      rw [if_neg (by omega), if_neg (by omega)]
      congr 2
      · omega
      · congr 1; omega
    · have := hp h1
      simp only [show ¬ k < 0 by omega, if_false, sliceBound]
      rw [if_neg (by omega), if_neg (by omega)]
      congr 2
      · omega
      · congr 1; omega
  unfold npSlice
  rw [this]
  rfl

/-- A good slice with as many items as the axis: also on a unit axis it selects everything. -/
theorem npSlice_unit {s : PySlice} {d : Nat} {a b k : Int} (h : sliceIndices s d = .ok (a, b, k))
    (hd : 0 < d) (hgood : 0 < k ∨ 0 ≤ b) (hfull : sliceLenN a b k = d) :
    npSlice a b k 1 = .ok (0, 1, k) := by
  obtain ⟨hk, hp, hn⟩ := sliceIndices_facts h
  have hl := (sliceLenN_spec (a := a) (b := b) hk (d - 1)).1 (by omega)
  rcases lt_or_gt_of_ne hk with h1 | h1
  · rw [if_neg (by omega)] at hl
    have := hn h1
    have h3 : (((d - 1 : Nat) : Int)) * k ≤ -((d - 1 : Nat) : Int) := by nlinarith
    omega
  · rw [if_pos h1] at hl
    have := hp h1
    have h3 : ((d - 1 : Nat) : Int) ≤ ((d - 1 : Nat) : Int) * k := by nlinarith
    have ha : a = 0 := by omega
    have hb : b = d := by omega
    have hs : sliceIndices ⟨some a, some b, some k⟩ 1 = .ok (0, 1, k) := by
      unfold sliceIndices
      simp only [Option.getD_some, hk, if_false, show ¬ k < 0 by omega, sliceBound]
      rw [if_neg (by omega), if_neg (by omega)]
      congr 2
      · omega
      · congr 1; omega
    unfold npSlice
    rw [hs]
    have h4 : sliceLenN 0 1 k = 1 := by
      have h5 := sliceLenN_spec (a := 0) (b := 1) hk 0
      have h6 := sliceLenN_spec (a := 0) (b := 1) hk 1
      rw [if_pos h1] at h5 h6
      simp at h5 h6
      omega
    show Except.ok ((0 : Int), sliceLenN 0 1 k, k) = _
    rw [h4]

theorem npSlice_one : npSlice 0 1 1 1 = .ok (0, 1, 1) := by decide

theorem progIndex_some {a : Int} {n : Nat} {k : Int} (hk : k ≠ 0) {p i : Nat} (hi : i < n)
    (h : (p : Int) = a + i * k) : progIndex a n k p = some i := by
  unfold progIndex
  rw [List.find?_range_eq_some]
  refine ⟨by simpa using h.symm, by simpa using hi, fun j hj => ?_⟩
  simp only [Bool.not_eq_true', decide_eq_false_iff_not]
  intro hh
  have : (j : Int) * k = i * k := by omega
  have := Int.eq_of_mul_eq_mul_right hk this
  omega

theorem progIndex_eq_some {a : Int} {n : Nat} {k : Int} {p i : Nat} (h : progIndex a n k p = some i) :
    i < n ∧ (p : Int) = a + i * k := by
  unfold progIndex at h
  have h1 := List.find?_some h
  have h2 := List.mem_of_find?_eq_some h
  exact ⟨by simpa using h2, by simpa using (of_decide_eq_true h1).symm⟩

/-! ## The preprocessing -/

/-- What the constructor does with the entries, one by one. -/
inductive Pre : List RawIx → List Nat → List Ix → Prop
  | nil : Pre [] [] []
  | int {r P e i d t} : t < d → Names d i t → Pre r P e → Pre (.int i :: r) (d :: P) (.int t :: e)
  | slice {r P e s d a b k} : sliceIndices s d = .ok (a, b, k) → 0 < sliceLenN a b k → Pre r P e →
      Pre (.slice s :: r) (d :: P) (.slice a b k :: e)
  | newaxis {r P e} : Pre r P e → Pre (.newaxis :: r) P (.newaxis :: e)

theorem Pre.append {r P e r' P' e'} (h : Pre r P e) (h' : Pre r' P' e') :
    Pre (r ++ r') (P ++ P') (e ++ e') := by
  induction h with
  | nil => exact h'
  | int h1 h2 _ ih => exact .int h1 h2 ih
  | slice h1 h2 _ ih => exact .slice h1 h2 ih
  | newaxis _ ih => exact .newaxis ih

theorem Pre.reverse {r P e} (h : Pre r P e) : Pre r.reverse P.reverse e.reverse := by
  induction h with
  | nil => exact .nil
  | int h1 h2 _ ih =>
    simp only [List.reverse_cons]
    exact ih.append (.int h1 h2 .nil)
  | slice h1 h2 _ ih =>
    simp only [List.reverse_cons]
    exact ih.append (.slice h1 h2 .nil)
  | @newaxis r P e _ ih =>
    simp only [List.reverse_cons]
    have := ih.append (.newaxis .nil)
    rwa [List.append_nil] at this

theorem slicePreprocess_int (i : Int) (r : List RawIx) (d : Nat) (P : List Nat) :
    slicePreprocess (.int i :: r) (d :: P) =
      if (if i < 0 then i + d else i) < 0 ∨ (if i < 0 then i + d else i) ≥ d then .error .indexError
      else match slicePreprocess r P with
        | .ok es => .ok (.int (if i < 0 then i + d else i).toNat :: es)
        | .error e => .error e := by
  show (if _ then _ else _) = _
  by_cases h : (if i < 0 then i + d else i) < 0 ∨ (if i < 0 then i + d else i) ≥ d
  · rw [if_pos h, if_pos h]; rfl
  · rw [if_neg h, if_neg h]
    show (slicePreprocess r P >>= _) = _
    cases slicePreprocess r P <;> rfl

theorem slicePreprocess_slice (s : PySlice) (r : List RawIx) (d : Nat) (P : List Nat) :
    slicePreprocess (.slice s :: r) (d :: P) =
      match sliceIndices s d with
      | .error e => .error e
      | .ok (a, b, k) => if sliceLenN a b k ≤ 0 then .error .indexError
        else match slicePreprocess r P with
          | .ok es => .ok (.slice a b k :: es)
          | .error e => .error e := by
  show (sliceIndices s d >>= _) = _
  cases sliceIndices s d with
  | error e => rfl
  | ok x =>
    obtain ⟨a, b, k⟩ := x
    show (if _ then _ else _) = _
    simp only
    by_cases h : sliceLenN a b k ≤ 0
    · rw [if_pos h, if_pos h]; rfl
    · rw [if_neg h, if_neg h]
      show (slicePreprocess r P >>= _) = _
      cases slicePreprocess r P <;> rfl

theorem slicePreprocess_newaxis (r : List RawIx) (P : List Nat) :
    slicePreprocess (.newaxis :: r) P =
      match slicePreprocess r P with
        | .ok es => .ok (.newaxis :: es)
        | .error e => .error e := by
  rw [slicePreprocess]
  cases slicePreprocess r P <;> rfl

theorem pre_of_preprocess {r : List RawIx} {P : List Nat} {e : List Ix} (h : slicePreprocess r P = .ok e)
    (hn : axesUsed r = P.length) : Pre r P e := by
  induction r generalizing P e with
  | nil =>
    have : P = [] := List.eq_nil_of_length_eq_zero hn.symm
    subst this
    cases h
    exact .nil
  | cons x r ih =>
    cases x with
    | int i =>
      cases P with
      | nil => cases hn
      | cons d P =>
        rw [slicePreprocess_int] at h
        by_cases hb : (if i < 0 then i + d else i) < 0 ∨ (if i < 0 then i + d else i) ≥ d
        · rw [if_pos hb] at h; cases h
        · rw [if_neg hb] at h
          cases hr : slicePreprocess r P with
          | error er => rw [hr] at h; cases h
          | ok es =>
            rw [hr] at h
            cases h
            refine .int ?_ ?_ (ih hr (by simpa [axesUsed] using hn))
            · omega
            · unfold Names
              split at hb <;> split <;> omega
    | slice s =>
      cases P with
      | nil => cases hn
      | cons d P =>
        rw [slicePreprocess_slice] at h
        cases hs : sliceIndices s d with
        | error er => rw [hs] at h; cases h
        | ok abk =>
          obtain ⟨a, b, k⟩ := abk
          rw [hs] at h
          simp only at h
          split at h
          · cases h
          · rename_i hb
            cases hr : slicePreprocess r P with
            | error er => rw [hr] at h; cases h
            | ok es =>
              rw [hr] at h
              cases h
              exact .slice hs (by omega) (ih hr (by simpa [axesUsed] using hn))
    | newaxis =>
      rw [slicePreprocess_newaxis] at h
      cases hr : slicePreprocess r P with
      | error er => rw [hr] at h; cases h
      | ok es =>
        rw [hr] at h
        cases h
        exact .newaxis (ih hr (by simpa [axesUsed] using hn))
    | ellipsis => unfold slicePreprocess at h; cases h

theorem accepts_of_pre {r P e} (h : Pre r P e) : Accepts r P := by
  induction h with
  | nil => trivial
  | int h1 h2 _ ih => exact ⟨⟨_, h1, h2⟩, ih⟩
  | @slice r P e s d a b k h1 h2 _ ih =>
    have := item_range h1 h2
    exact ⟨⟨(a + (0 : Nat) * k).toNat, (isItem_iff h1 0 _).2 ⟨h2, by omega⟩⟩, ih⟩
  | newaxis _ ih => exact ih

theorem preprocess_of_accepts {r : List RawIx} {P : List Nat} (h : Accepts r P) :
    ∃ e, slicePreprocess r P = .ok e := by
  induction r generalizing P with
  | nil => exact ⟨[], by unfold slicePreprocess; rfl⟩
  | cons x r ih =>
    cases x with
    | int i =>
      cases P with
      | nil => cases h
      | cons d P =>
        obtain ⟨⟨t, ht, hn⟩, h⟩ := h
        obtain ⟨e, he⟩ := ih h
        rw [slicePreprocess_int, he, if_neg]
        · exact ⟨_, rfl⟩
        · unfold Names at hn
          split <;> omega
    | slice s =>
      cases P with
      | nil => cases h
      | cons d P =>
        obtain ⟨⟨t, ht⟩, h⟩ := h
        obtain ⟨e, he⟩ := ih h
        obtain ⟨a, b, k, hs, _⟩ := id ht
        rw [slicePreprocess_slice, he, hs]
        simp only
        rw [if_neg]
        · exact ⟨_, rfl⟩
        · have := ((isItem_iff hs 0 t).1 ht).1
          omega
    | newaxis =>
      obtain ⟨e, he⟩ := ih (P := P) h
      rw [slicePreprocess_newaxis, he]
      exact ⟨_, rfl⟩
    | ellipsis => cases P <;> cases h

/-! ## Expansion of `Ellipsis` -/

theorem ellipsisAsSlice_none {b : Bool} {r : List RawIx} (h : RawIx.ellipsis ∉ r) :
    ellipsisAsSlice b r = r := by
  induction r with
  | nil => cases b <;> rfl
  | cons x r ih =>
    have hr := ih (fun hh => h (List.mem_cons_of_mem _ hh))
    cases x with
    | ellipsis => exact absurd List.mem_cons_self h
    | int i => cases b <;> simp only [ellipsisAsSlice, hr]
    | slice s => cases b <;> simp only [ellipsisAsSlice, hr]
    | newaxis => cases b <;> simp only [ellipsisAsSlice, hr]

theorem ellipsisAsSlice_one {a b : List RawIx} (ha : RawIx.ellipsis ∉ a) (hb : RawIx.ellipsis ∉ b) :
    ellipsisAsSlice false (a ++ .ellipsis :: b) = a ++ .ellipsis :: b := by
  induction a with
  | nil => simp only [List.nil_append, ellipsisAsSlice, ellipsisAsSlice_none hb]
  | cons x r ih =>
    have hr := ih (fun hh => ha (List.mem_cons_of_mem _ hh))
    cases x with
    | ellipsis => exact absurd List.mem_cons_self ha
    | int i => simp only [List.cons_append, ellipsisAsSlice, hr]
    | slice s => simp only [List.cons_append, ellipsisAsSlice, hr]
    | newaxis => simp only [List.cons_append, ellipsisAsSlice, hr]

theorem expandEllipsis_one (n : Nat) {a b : List RawIx} (ha : RawIx.ellipsis ∉ a) :
    expandEllipsis n (a ++ .ellipsis :: b) = a ++ List.replicate n colon ++ b := by
  induction a with
  | nil => simp only [List.nil_append, expandEllipsis, colon]
  | cons x r ih =>
    have hr := ih (fun hh => ha (List.mem_cons_of_mem _ hh))
    cases x with
    | ellipsis => exact absurd List.mem_cons_self ha
    | int i => simp only [List.cons_append, expandEllipsis, hr]
    | slice s => simp only [List.cons_append, expandEllipsis, hr]
    | newaxis => simp only [List.cons_append, expandEllipsis, hr]

theorem axesUsed_append (a b : List RawIx) : axesUsed (a ++ b) = axesUsed a + axesUsed b := by
  induction a with
  | nil => simp [axesUsed]
  | cons x r ih => cases x <;> simp only [List.cons_append, axesUsed, ih] <;> omega

theorem axesUsed_colons (n : Nat) : axesUsed (List.replicate n colon) = n := by
  induction n with
  | zero => rfl
  | succ n ih => simp only [List.replicate_succ, colon, axesUsed]; unfold colon at ih; omega

theorem countP_uses (a : List RawIx) : a.countP RawIx.uses = axesUsed a := by
  induction a with
  | nil => rfl
  | cons x r ih => cases x <;> simp [List.countP_cons, axesUsed, ih, RawIx.uses]

theorem hasEllipsis_false {a : List RawIx} (h : RawIx.ellipsis ∉ a) : hasEllipsis a = false := by
  unfold hasEllipsis
  rw [List.any_eq_false]
  intro x hx
  cases x with
  | ellipsis => exact absurd hx h
  | _ => simp

theorem sliceExpand_ok {raw full : List RawIx} {n : Nat} (h : Expands raw n full) :
    sliceExpand raw n = .ok full := by
  obtain ⟨hn, ⟨hr, m, hf⟩ | ⟨a, b, m, hr, ha, hb, hf⟩⟩ := h
  · unfold sliceExpand
    have hm : axesUsed raw + m = n := by rw [← hn, hf, axesUsed_append, axesUsed_colons]
    simp only [ellipsisAsSlice_none hr, countP_uses, hasEllipsis_false hr]
    rw [if_neg (by omega), if_neg (by simp), hf]
    have : n - axesUsed raw = m := by omega
    rw [this]
    rfl
  · unfold sliceExpand
    subst hr
    have hm : axesUsed a + axesUsed b + m = n := by
      rw [← hn, hf, axesUsed_append, axesUsed_append, axesUsed_colons]; omega
    have hu : axesUsed (a ++ RawIx.ellipsis :: b) = axesUsed a + axesUsed b := by
      rw [axesUsed_append]; rfl
    have he : hasEllipsis (a ++ RawIx.ellipsis :: b) = true := by
      unfold hasEllipsis
      simp
    simp only [ellipsisAsSlice_one ha hb, countP_uses, he, hu]
    rw [if_neg (by omega), if_pos trivial, expandEllipsis_one _ ha, hf]
    have : n - (axesUsed a + axesUsed b) = m := by omega
    rw [this]

/-! ## Plates -/

/-- Plates of the child. -/
def platesOf : List Ix → List Nat
  | [] => []
  | .int _ :: e => platesOf e
  | .slice a b k :: e => sliceLenN a b k :: platesOf e
  | .newaxis :: e => 1 :: platesOf e

theorem platesOf_append (a b : List Ix) : platesOf (a ++ b) = platesOf a ++ platesOf b := by
  induction a with
  | nil => rfl
  | cons x r ih => cases x <;> simp only [List.cons_append, platesOf, ih]

theorem platesOf_reverse (a : List Ix) : platesOf a.reverse = (platesOf a).reverse := by
  induction a with
  | nil => rfl
  | cons x r ih =>
    rw [List.reverse_cons, platesOf_append, ih]
    cases x <;> simp [platesOf]

theorem indexedShape_of_pre {r P e} (h : Pre r P e) : IndexedShape r P (platesOf e) := by
  induction h with
  | nil => rfl
  | int h1 h2 _ ih => exact ih
  | slice h1 h2 _ ih => exact ⟨(hasItems_iff h1 _).2 rfl, ih⟩
  | newaxis _ ih => exact ⟨rfl, ih⟩

theorem indexedShape_unique {r P e} (h : Pre r P e) {C : List Nat} (hC : IndexedShape r P C) :
    C = platesOf e := by
  induction h generalizing C with
  | nil => exact hC
  | int h1 h2 _ ih => exact ih hC
  | slice h1 h2 _ ih =>
    cases C with
    | nil => cases hC
    | cons n C =>
      obtain ⟨ha, hb⟩ := hC
      rw [(hasItems_iff h1 _).1 ha, ih hb]
      rfl
  | newaxis _ ih =>
    cases C with
    | nil => cases hC
    | cons n C =>
      obtain ⟨ha, hb⟩ := hC
      rw [ha, ih hb]
      rfl

theorem slicePlates_ok {r P e} (h : Pre r P e) : slicePlates e P = .ok (platesOf e) := by
  have key : ∀ pre : List Nat, e.foldlM slicePlatesStep (pre.length, pre ++ P) =
      .ok (pre.length + (platesOf e).length, pre ++ platesOf e) := by
    induction h with
    | nil => intro pre; simp [platesOf, pure, Except.pure]
    | @int r P e i d t h1 h2 _ ih =>
      intro pre
      rw [List.foldlM_cons]
      simp only [slicePlatesStep]
      rw [if_pos (by simp)]
      have : (pre ++ d :: P).eraseIdx pre.length = pre ++ P := by
        rw [List.eraseIdx_append_of_length_le (le_refl _), Nat.sub_self]; rfl
      rw [this]
      exact ih pre
    | @slice r P e s d a b k h1 h2 _ ih =>
      intro pre
      rw [List.foldlM_cons]
      simp only [slicePlatesStep]
      rw [if_neg (by omega), if_pos (by simp)]
      have : (pre ++ d :: P).set pre.length (sliceLenN a b k) = (pre ++ [sliceLenN a b k]) ++ P := by
        rw [List.set_append_right _ _ (le_refl _), Nat.sub_self]; simp
      rw [this]
      have := ih (pre ++ [sliceLenN a b k])
      rw [List.length_append, List.length_singleton] at this
      refine Eq.trans this ?_
      simp only [platesOf, List.length_cons, List.append_assoc, List.singleton_append]
      congr 2
      omega
    | @newaxis r P e _ ih =>
      intro pre
      rw [List.foldlM_cons]
      simp only [slicePlatesStep]
      rw [List.take_left, List.drop_left]
      have := ih (pre ++ [1])
      rw [List.length_append, List.length_singleton] at this
      refine Eq.trans this ?_
      simp only [platesOf, List.length_cons, List.append_assoc, List.singleton_append]
      congr 2
      omega
  have := key []
  unfold slicePlates
  simp only [List.nil_append, List.length_nil] at this
  rw [this]
  rfl

/-! ## Broadcasting of axis lists from the last axis to the first one -/

/-- `S` broadcasts to `P`. -/
def BcR : List Nat → List Nat → Prop
  | [], _ => True
  | s :: S, d :: P => (s = 1 ∨ s = d) ∧ BcR S P
  | _ :: _, [] => False

theorem bcR_iff (S P : List Nat) :
    BcR S P ↔ S.length ≤ P.length ∧ ∀ k, lenR S k = 1 ∨ lenR S k = lenR P k := by
  induction S generalizing P with
  | nil => simp [BcR, lenR]
  | cons s S ih =>
    cases P with
    | nil => simp [BcR]
    | cons d P =>
      simp only [BcR, ih, List.length_cons]
      constructor
      · rintro ⟨h0, h1, h2⟩
        refine ⟨by omega, fun k => ?_⟩
        cases k with
        | zero => simpa [lenR] using h0
        | succ k => simpa [lenR] using h2 k
      · rintro ⟨h1, h2⟩
        exact ⟨by simpa [lenR] using h2 0, by omega, fun k => by simpa [lenR] using h2 (k + 1)⟩

theorem broadcastsTo_iff_bcR (S P : List Nat) : BroadcastsTo S P ↔ BcR S.reverse P.reverse := by
  rw [bcR_iff]
  unfold BroadcastsTo
  simp only [← axisLen_reverse, List.reverse_reverse, List.length_reverse]

theorem restrictR_cons (s : Nat) (S : List Nat) (c : Nat → Nat) :
    restrictR (s :: S) c = consC (if s = 1 then 0 else c 0) (restrictR S fun k => c (k + 1)) := by
  funext k
  cases k with
  | zero => simp [restrictR, lenR, consC]
  | succ k => rfl

theorem restrictR_nil (c : Nat → Nat) : restrictR [] c = fun _ => 0 := by
  funext k
  simp [restrictR, lenR]

theorem consC_zero (i : Nat) (c : Nat → Nat) : consC i c 0 = i := rfl

theorem consC_tail (i : Nat) (c : Nat → Nat) : (fun k => consC i c (k + 1)) = c := rfl

/-- All slices are good: with a negative step they do not reach the first position. -/
def GoodIx (e : List Ix) : Prop := ∀ a b k, Ix.slice a b k ∈ e → 0 < k ∨ 0 ≤ b

theorem GoodIx.tail {x : Ix} {e : List Ix} (h : GoodIx (x :: e)) : GoodIx e :=
  fun a b k hh => h a b k (List.mem_cons_of_mem _ hh)

theorem GoodIx.reverse {e : List Ix} (h : GoodIx e) : GoodIx e.reverse :=
  fun a b k hh => h a b k (List.mem_reverse.1 hh)

/-! ## Moments -/

theorem momentIx_nil (e : List Ix) : momentIx e [] = [] := by
  induction e with
  | nil => rfl
  | cons x e ih => cases x <;> simp [momentIx, ih]

theorem nixAxes_cons (x : NIx) (l : List NIx) :
    nixAxes (x :: l) = nixAxes l + (match x with | .newaxis => 0 | _ => 1) := by
  unfold nixAxes
  rw [List.countP_cons]
  cases x <;> simp

theorem moments_core {r P e} (h : Pre r P e) (hg : GoodIx e) (S : List Nat) (hS : BcR S P) :
    nixAxes (momentIx e S) = S.length ∧
    ∃ vs, nviewShape (momentIx e S) S = .ok vs ∧ BcR vs (platesOf e) ∧
      ∀ c p, Picks r P c p → nviewCoord (momentIx e S) S (restrictR vs c) = restrictR S p := by
  induction h generalizing S with
  | nil =>
    cases S with
    | cons s S => cases hS
    | nil => exact ⟨rfl, [], rfl, trivial, fun c p _ => by rw [restrictR_nil, restrictR_nil]; rfl⟩
  | @int r P e i d t ht hn hpre ih =>
    cases S with
    | nil =>
      rw [momentIx_nil]
      exact ⟨rfl, [], rfl, trivial, fun c p _ => by rw [restrictR_nil, restrictR_nil]; rfl⟩
    | cons s S =>
      obtain ⟨h0, h1⟩ := hS
      obtain ⟨hl, vs, hv, hb, hc⟩ := ih hg.tail S h1
      simp only [momentIx]
      refine ⟨by rw [nixAxes_cons, hl, List.length_cons]; by_cases hs : s = 1 <;> simp [hs], vs, ?_, hb, fun c p hp => ?_⟩
      · by_cases hs : s = 1
        · rw [if_neg (by simpa using hs)]
          show (if 0 < s then _ else _) = _
          rw [if_pos (by omega), hv]
        · rw [if_pos hs]
          show (if t < s then _ else _) = _
          rw [if_pos (by omega), hv]
      · obtain ⟨hp0, hp1, hp2⟩ := hp
        rw [restrictR_cons]
        by_cases hs : s = 1
        · rw [if_neg (by simpa using hs), if_pos hs]
          show consC 0 _ = _
          rw [hc c _ hp2]
        · rw [if_pos hs, if_neg hs]
          show consC t _ = _
          rw [hc c _ hp2]
          congr 1
          unfold Names at hn hp1
          omega
  | @slice r P e s d a b k hs hlen hpre ih =>
    cases S with
    | nil =>
      rw [momentIx_nil]
      exact ⟨rfl, [], rfl, trivial, fun c p _ => by rw [restrictR_nil, restrictR_nil]; rfl⟩
    | cons m S =>
      obtain ⟨h0, h1⟩ := hS
      obtain ⟨hl, vs, hv, hb, hc⟩ := ih hg.tail S h1
      simp only [momentIx]
      by_cases hm : m = 1
      · subst hm
        rw [if_neg (by simp)]
        refine ⟨by rw [nixAxes_cons, hl, List.length_cons], 1 :: vs, ?_, ⟨.inl rfl, hb⟩, fun c p hp => ?_⟩
        · simp only [nviewShape, npSlice_one, hv]
          rfl
        · obtain ⟨hp0, hp1⟩ := hp
          simp only [nviewCoord, npSlice_one, restrictR_cons, if_true, consC_zero, consC_tail]
          rw [hc _ _ hp1]
          rfl
      · rw [if_pos hm]
        have hd : m = d := by omega
        subst hd
        have hnp := npSlice_self hs hlen (hg a b k List.mem_cons_self)
        refine ⟨by rw [nixAxes_cons, hl, List.length_cons], sliceLenN a b k :: vs, ?_,
          ⟨.inr rfl, hb⟩, fun c p hp => ?_⟩
        · simp only [nviewShape, hnp, hv]
          rfl
        · obtain ⟨hp0, hp1⟩ := hp
          simp only [nviewCoord, hnp, restrictR_cons, consC_zero, consC_tail]
          rw [hc _ _ hp1, if_neg hm]
          congr 1
          obtain ⟨hi, ht⟩ := (isItem_iff hs _ _).1 hp0
          split
          · have : c 0 = 0 := by omega
            rw [this] at ht
            omega
          · omega
  | @newaxis r P e hpre ih =>
    obtain ⟨hl, vs, hv, hb, hc⟩ := ih hg.tail S hS
    simp only [momentIx]
    by_cases hS0 : S = []
    · subst hS0
      rw [if_neg (by simp), momentIx_nil]
      exact ⟨rfl, [], rfl, trivial, fun c p _ => by rw [restrictR_nil, restrictR_nil]; rfl⟩
    · rw [if_pos hS0]
      refine ⟨by rw [nixAxes_cons, hl]; rfl, 1 :: vs, ?_, ⟨.inl rfl, hb⟩, fun c p hp => ?_⟩
      · simp only [nviewShape, hv]
        rfl
      · obtain ⟨hp0, hp1⟩ := hp
        simp only [nviewCoord, restrictR_cons, consC_tail]
        exact hc _ _ hp1

/-! ## Messages -/

theorem reverseIx_child_nil {r P e} (h : Pre r P e) : (reverseIx e [] P).1 = [] := by
  induction h with
  | nil => rfl
  | int _ _ _ ih => simpa only [reverseIx] using ih
  | slice _ _ _ ih => simpa [reverseIx] using ih
  | newaxis _ ih => simpa [reverseIx] using ih

theorem message_core {r P e} (h : Pre r P e) (hg : GoodIx e) (M : List Nat) (hM : BcR M (platesOf e)) :
    nixAxes (reverseIx e M P).1 = M.length ∧
    nixAxes (reverseIx e M P).2.1 = (reverseIx e M P).2.2.length ∧
    BcR (reverseIx e M P).2.2 P ∧
    ∃ vs ws, nviewShape (reverseIx e M P).1 M = .ok vs ∧
      nviewShape (reverseIx e M P).2.1 (reverseIx e M P).2.2 = .ok ws ∧ BcR vs ws ∧
      ∀ p, (∀ k, p k < lenR P k) →
        (∀ c, Picks r P c p → ∃ w,
          nviewInv (reverseIx e M P).2.1 (reverseIx e M P).2.2 (restrictR (reverseIx e M P).2.2 p) = some w ∧
          nviewCoord (reverseIx e M P).1 M (restrictR vs w) = restrictR M c) ∧
        ∀ w, nviewInv (reverseIx e M P).2.1 (reverseIx e M P).2.2 (restrictR (reverseIx e M P).2.2 p) = some w →
          ∃ c, Picks r P c p := by
  induction h generalizing M with
  | nil =>
    cases M with
    | cons s S => cases hM
    | nil =>
      refine ⟨rfl, rfl, trivial, [], [], rfl, rfl, trivial, fun p _ => ⟨fun c _ => ⟨_, rfl, ?_⟩, fun w _ =>
        ⟨fun _ => 0, trivial⟩⟩⟩
      rw [restrictR_nil, restrictR_nil]
      rfl
  | @int r P e i d t ht hn hpre ih =>
    obtain ⟨h1, h2, h3, vs, ws, hv, hw, hb, hp⟩ := ih hg.tail M hM
    simp only [reverseIx]
    refine ⟨h1, by rw [nixAxes_cons, h2, List.length_cons], ⟨.inr rfl, h3⟩, vs, ws, hv, ?_, hb,
      fun p hpv => ?_⟩
    · show (if t < d then _ else _) = _
      rw [if_pos ht, hw]
    · have h00 : p 0 < d := by simpa [lenR] using hpv 0
      have hpt := hp (fun k => p (k + 1)) fun k => by simpa [lenR] using hpv (k + 1)
      have hr0 : (if d = 1 then 0 else p 0) = p 0 := by split <;> omega
      rw [restrictR_cons, hr0]
      have hinv : nviewInv (NIx.int t :: (reverseIx e M P).2.1) (d :: (reverseIx e M P).2.2)
          (consC (p 0) (restrictR (reverseIx e M P).2.2 fun k => p (k + 1))) =
          if p 0 = t then nviewInv (reverseIx e M P).2.1 (reverseIx e M P).2.2
            (restrictR (reverseIx e M P).2.2 fun k => p (k + 1)) else none := rfl
      rw [hinv]
      constructor
      · rintro c ⟨_, hc1, hc2⟩
        have : p 0 = t := by unfold Names at hn hc1; omega
        rw [if_pos this]
        exact hpt.1 c hc2
      · intro w hw
        split at hw
        · rename_i hpt0
          obtain ⟨c, hc⟩ := hpt.2 w hw
          exact ⟨c, h00, by rw [hpt0]; exact hn, hc⟩
        · cases hw
  | @slice r P e s d a b k hs hlen hpre ih =>
    have hgood := hg a b k List.mem_cons_self
    have hk := (sliceIndices_facts hs).1
    have hnp := npSlice_self hs hlen hgood
    have hM' : BcR M.tail (platesOf e) := by
      cases M with
      | nil => trivial
      | cons m M => exact hM.2
    obtain ⟨h1, h2, h3, vs, ws, hv, hw, hb, hp⟩ := ih hg.tail M.tail hM'
    have hd0 : 0 < d := by
      have := item_range hs hlen
      omega
    simp only [reverseIx]
    -- the part of the child does not depend on the case
    obtain ⟨vs', hv', hvs', hvc, hax⟩ : ∃ vs', nviewShape (if M ≠ [] then NIx.full :: (reverseIx e M.tail P).1
        else (reverseIx e M.tail P).1) M = .ok vs' ∧ (vs' = [] ∧ M = [] ∨
          ∃ m, M.head? = some m ∧ vs' = m :: vs) ∧
        (∀ w c, (nviewCoord (reverseIx e M.tail P).1 M.tail (restrictR vs fun k => w (k + 1)) =
            restrictR M.tail fun k => c (k + 1)) → (M.head? = none ∨ M.head? = some 1 ∨ w 0 = c 0) →
          nviewCoord (if M ≠ [] then NIx.full :: (reverseIx e M.tail P).1
            else (reverseIx e M.tail P).1) M (restrictR vs' w) = restrictR M c) ∧
        nixAxes (if M ≠ [] then NIx.full :: (reverseIx e M.tail P).1 else (reverseIx e M.tail P).1) =
          M.length := by
      cases M with
      | nil =>
        rw [if_neg (by simp)]
        simp only [List.tail_nil]
        rw [reverseIx_child_nil hpre]
        exact ⟨[], rfl, .inl (by simp), fun w c _ _ => by rw [restrictR_nil, restrictR_nil]; rfl, rfl⟩
      | cons m M =>
        rw [if_pos (by simp)]
        simp only [List.tail_cons] at hv h1 ⊢
        refine ⟨m :: vs, ?_, .inr ⟨m, rfl, rfl⟩, fun w c hwc h0 => ?_, by
          rw [nixAxes_cons, h1, List.length_cons]⟩
        · simp only [nviewShape, hv]
          rfl
        · simp only [nviewCoord, restrictR_cons, consC_zero, consC_tail]
          rw [hwc]
          congr 1
          simp only [List.head?_cons, Option.some.injEq, reduceCtorEq, false_or] at h0
          split
          · rfl
          · omega
    by_cases hbc : (M = [] ∨ M.head? = some 1) ∧ sliceLenN a b k = d
    · rw [if_pos hbc]
      obtain ⟨hM1, hfull⟩ := hbc
      have hnu := npSlice_unit hs hd0 hgood hfull
      refine ⟨hax, by rw [nixAxes_cons, h2, List.length_cons], ⟨.inl rfl, h3⟩, vs', 1 :: ws, hv', ?_, ?_,
        fun p hpv => ?_⟩
      · simp only [nviewShape, hnu, hw]
        rfl
      · rcases hvs' with ⟨rfl, _⟩ | ⟨m, hm, rfl⟩
        · trivial
        · refine ⟨.inl ?_, hb⟩
          rcases hM1 with hM1 | hM1
          · subst hM1; cases hm
          · rw [hm] at hM1; exact Option.some.inj hM1
      · have h00 : p 0 < d := by simpa [lenR] using hpv 0
        have hpt := hp (fun k => p (k + 1)) fun k => by simpa [lenR] using hpv (k + 1)
        have hpi : progIndex 0 1 k 0 = some 0 := progIndex_some hk (by omega) (by simp)
        rw [restrictR_cons, if_pos rfl]
        simp only [nviewInv, hnu, consC_zero, consC_tail, hpi]
        constructor
        · rintro c ⟨hc1, hc2⟩
          obtain ⟨w, hw1, hw2⟩ := hpt.1 _ hc2
          rw [hw1]
          refine ⟨_, rfl, hvc _ _ hw2 ?_⟩
          rcases hM1 with hM1 | hM1
          · left; rw [hM1]; rfl
          · right; left; exact hM1
        · intro w hw
          rw [Option.map_eq_some_iff] at hw
          obtain ⟨w', hw', _⟩ := hw
          obtain ⟨c, hc⟩ := hpt.2 w' hw'
          -- the full slice selects `p 0`
          have h0i : ∃ i, IsItem s d i (p 0) := by
            have hl := (sliceLenN_spec (a := a) (b := b) hk (d - 1)).1 (by omega)
            obtain ⟨_, hpos, hneg⟩ := sliceIndices_facts hs
            rcases lt_or_gt_of_ne hk with hk1 | hk1
            · rw [if_neg (by omega)] at hl
              have := hneg hk1
              have h3 : (((d - 1 : Nat) : Int)) * k ≤ -((d - 1 : Nat) : Int) := by nlinarith
              omega
            · rw [if_pos hk1] at hl
              have := hpos hk1
              by_cases hd1 : d = 1
              · refine ⟨0, (isItem_iff hs _ _).2 ⟨by omega, ?_⟩⟩
                subst hd1
                simp at hl ⊢
                omega
              · have hk2 : k = 1 := by
                  by_contra hne
                  have : 2 ≤ k := by omega
                  have h3 : ((d - 1 : Nat) : Int) * 2 ≤ ((d - 1 : Nat) : Int) * k := by nlinarith
                  omega
                subst hk2
                exact ⟨p 0, (isItem_iff hs _ _).2 ⟨by omega, by omega⟩⟩
          obtain ⟨i, hi⟩ := h0i
          exact ⟨consC i c, hi, hc⟩
    · rw [if_neg hbc]
      refine ⟨hax, by rw [nixAxes_cons, h2, List.length_cons], ⟨.inr rfl, h3⟩, vs', sliceLenN a b k :: ws, hv',
        ?_, ?_, fun p hpv => ?_⟩
      · simp only [nviewShape, hnp, hw]
        rfl
      · rcases hvs' with ⟨rfl, _⟩ | ⟨m, hm, rfl⟩
        · trivial
        · refine ⟨?_, hb⟩
          cases M with
          | nil => cases hm
          | cons m' M =>
            cases hm
            exact hM.1
      · have h00 : p 0 < d := by simpa [lenR] using hpv 0
        have hpt := hp (fun k => p (k + 1)) fun k => by simpa [lenR] using hpv (k + 1)
        have hr0 : (if d = 1 then 0 else p 0) = p 0 := by split <;> omega
        rw [restrictR_cons, hr0]
        simp only [nviewInv, hnp, consC_zero, consC_tail]
        constructor
        · rintro c ⟨hc1, hc2⟩
          obtain ⟨hi, ht⟩ := (isItem_iff hs _ _).1 hc1
          obtain ⟨w, hw1, hw2⟩ := hpt.1 _ hc2
          rw [progIndex_some hk hi ht]
          simp only [hw1]
          exact ⟨_, rfl, hvc _ _ hw2 (.inr (.inr rfl))⟩
        · intro w hw
          cases hpi : progIndex a (sliceLenN a b k) k (p 0) with
          | none => rw [hpi] at hw; cases hw
          | some i =>
            rw [hpi] at hw
            simp only at hw
            rw [Option.map_eq_some_iff] at hw
            obtain ⟨w', hw', _⟩ := hw
            obtain ⟨c, hc⟩ := hpt.2 w' hw'
            obtain ⟨hi, ht⟩ := progIndex_eq_some hpi
            exact ⟨consC i c, (isItem_iff hs _ _).2 ⟨hi, ht⟩, hc⟩
  | @newaxis r P e hpre ih =>
    have hM' : BcR M.tail (platesOf e) := by
      cases M with
      | nil => trivial
      | cons m M => exact hM.2
    obtain ⟨h1, h2, h3, vs, ws, hv, hw, hb, hp⟩ := ih hg.tail M.tail hM'
    simp only [reverseIx]
    cases M with
    | nil =>
      simp only [List.tail_nil] at h1 h2 h3 hv hw hp ⊢
      rw [if_neg (by simp)]
      refine ⟨h1, h2, h3, vs, ws, hv, hw, hb, fun p hpv => ⟨?_, ?_⟩⟩
      · rintro c ⟨hc0, hc⟩
        obtain ⟨w, hw1, hw2⟩ := (hp p hpv).1 _ hc
        refine ⟨w, hw1, ?_⟩
        rw [hw2, restrictR_nil, restrictR_nil]
      · intro w hw
        obtain ⟨c, hc⟩ := (hp p hpv).2 w hw
        exact ⟨consC 0 c, rfl, hc⟩
    | cons m M =>
      simp only [List.tail_cons] at h1 h2 h3 hv hw hp ⊢
      rw [if_pos (by simp)]
      have hm : m = 1 := by
        have := hM.1
        omega
      subst hm
      refine ⟨by rw [nixAxes_cons, h1, List.length_cons], h2, h3, vs, ws, ?_, hw, hb,
        fun p hpv => ⟨?_, ?_⟩⟩
      · show (if 0 < 1 then _ else _) = _
        rw [if_pos (by omega), hv]
      · rintro c ⟨hc0, hc⟩
        obtain ⟨w, hw1, hw2⟩ := (hp p hpv).1 _ hc
        refine ⟨w, hw1, ?_⟩
        rw [restrictR_cons, if_pos rfl]
        show consC 0 _ = _
        rw [hw2]
      · intro w hw
        obtain ⟨c, hc⟩ := (hp p hpv).2 w hw
        exact ⟨consC 0 c, rfl, hc⟩

end Verif
