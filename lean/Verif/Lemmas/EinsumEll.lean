import Verif.Lemmas.KeyedPlates
import Verif.Model.RotateArrays
import Verif.Props.LinalgAxes

/-!
# `np.einsum` with ellipses
-/

namespace Verif
open Spec

theorem le_foldl_max {l : List Nat} {a x : Nat} (h : x ∈ l ∨ x ≤ a) : x ≤ l.foldl max a := by
  induction l generalizing a with
  | nil => simpa using h
  | cons y l ih =>
    apply ih
    rcases h with h | h
    · rcases List.mem_cons.1 h with rfl | h
      · exact .inr (le_max_right _ _)
      · exact .inl h
    · exact .inr (le_max_of_le_left h)

/-- the meaning of `np.einsum` with ellipses -/
theorem npEinsumEll_ok (ops : List (Arr ℝ × List Nat)) (out : List Nat) (len : Nat → Nat) (K : List Nat) (P : List Nat)
    (hdim : ∀ op ∈ ops, op.2.length ≤ op.1.shape.length)
    (hP : IsBroadcast (ops.map fun op => op.1.shape.take (op.1.shape.length - op.2.length)) P)
    (hfit : ∀ op ∈ ops, ∀ p ∈ op.2.zip (op.1.shape.drop (op.1.shape.length - op.2.length)), p.2 = 1 ∨ p.2 = len p.1)
    (hatt : ∀ k, (∃ op ∈ ops, k ∈ op.2) → len k = 1 ∨ ∃ op ∈ ops,
      (k, len k) ∈ op.2.zip (op.1.shape.drop (op.1.shape.length - op.2.length)))
    (hnd : out.Nodup) (hout : ∀ k ∈ out, ∃ op ∈ ops, k ∈ op.2)
    (hKnd : K.Nodup) (hK : ∀ k, k ∈ K ↔ (∃ op ∈ ops, k ∈ op.2) ∧ k ∉ out) :
    ∃ y, npEinsumEll ops out = .ok y ∧ y.shape = P ++ out.map len ∧
      ∀ p e, ValidIn P p → (∀ k ∈ out, e k < len k) →
        y.at (joinC out.length (coord (out.map e)) p) = sumKeys (K.map fun k => (k, len k))
          (fun e => (ops.map fun op => op.1.at (joinC op.2.length (coord (op.2.map e)) p)).prod) e := by
  obtain ⟨y, h1, h2, h3⟩ := npEinsum_plates ops out id len ((ops.flatMap (·.2)).foldl max 0 + 1) K P
    (fun op hop k hk => Nat.lt_succ_of_le (le_foldl_max (.inl (List.mem_flatMap.2 ⟨op, hop, hk⟩))))
    (fun _ _ _ _ h => h) hdim hP hfit hatt hnd hout hKnd hK
  refine ⟨y, ?_, h2, h3⟩
  rw [← h1]
  unfold npEinsumEll
  have e : (ops.map fun op => op.1.shape.length - op.2.length).foldl max 0 = P.length := by
    rw [isBroadcast_length hP, maxNdim, List.foldl_map, List.foldl_map]
    simp
  simp only [List.map_id, e]

theorem downTo_length (k : Nat) : (downTo k).length = k := by simp [downTo]

theorem mem_downTo {k l : Nat} : l ∈ downTo k ↔ 1 ≤ l ∧ l ≤ k := by
  simp only [downTo, List.mem_map, List.mem_reverse, List.mem_range]
  constructor
  · rintro ⟨a, h, rfl⟩; omega
  · intro h; exact ⟨l - 1, by omega, by omega⟩

theorem downTo_nodup (k : Nat) : (downTo k).Nodup := by
  unfold downTo
  exact (List.nodup_reverse.2 List.nodup_range).map (fun a b h => by simpa using h)

theorem downTo_succ (k : Nat) : downTo (k + 1) = (k + 1) :: downTo k := by
  simp [downTo, List.range_succ]

theorem downTo_map_axisLen (b : List Nat) : (downTo b.length).map (fun l => axisLen b (l - 1)) = b := by
  apply List.ext_getElem
  · simp [downTo]
  · intro i h1 h2
    simp only [downTo, List.getElem_map, List.getElem_reverse, List.getElem_range, List.length_range]
    have := axisLen_eq_getElem (r := b) (j := i) h2
    simpa using this

theorem downTo_map_coord (i : List Nat) : (downTo i.length).map (fun l => coord i (l - 1)) = i := by
  apply List.ext_getElem
  · simp [downTo]
  · intro n h1 h2
    simp only [downTo, List.getElem_map, List.getElem_reverse, List.getElem_range, List.length_range, coord]
    rw [List.getD_eq_getElem?_getD, List.getElem?_eq_getElem (by simp; omega)]
    simp
    congr 1
    omega

theorem zip_map_self {α β : Type} (l : List α) (f : α → β) : l.zip (l.map f) = l.map fun x => (x, f x) := by
  induction l with
  | nil => rfl
  | cons x l ih => simp [ih]

theorem zip_downTo_eq (b : List Nat) : (downTo b.length).zip b = (downTo b.length).map fun l => (l, axisLen b (l - 1)) := by
  conv_lhs => enter [2]; rw [← downTo_map_axisLen b]
  rw [zip_map_self]

theorem zip_downTo {b : List Nat} {q : Nat × Nat} (h : q ∈ (downTo b.length).zip b) : q.2 = axisLen b (q.1 - 1) := by
  rw [zip_downTo_eq] at h
  obtain ⟨l, _, rfl⟩ := List.mem_map.1 h
  rfl

theorem mem_zip_downTo {b : List Nat} {l : Nat} (h : l ∈ downTo b.length) : (l, axisLen b (l - 1)) ∈ (downTo b.length).zip b := by
  rw [zip_downTo_eq]
  exact List.mem_map.2 ⟨l, h, rfl⟩

/-- the einsum of the rotations: the axis before the axes `b` is multiplied by a matrix -/
theorem rotateEinsum_ok {X R : Arr ℝ} {pa pr P b : List Nat} {m n : Nat} (hX : X.shape = pa ++ n :: b) (hR : R.shape = pr ++ [m, n])
    (hP : IsBroadcast [pr, pa] P) :
    ∃ Y, rotateEinsum X R (b.length + 1) = .ok Y ∧ Y.shape = P ++ m :: b ∧
      ∀ p ∈ indices P, ∀ i < m, ∀ l ∈ indices b, Y.at (coord (p ++ i :: l))
        = ∑ j ∈ Finset.range n, R.at (coord (p ++ [i, j])) * X.at (coord (p ++ j :: l)) := by
  set k := b.length + 1 with hk
  set len : Nat → Nat := fun l => if l = k + 1 then m else if l = k then n else axisLen b (l - 1) with hlen
  have dR : R.shape.length - 2 = pr.length := by simp [hR]
  have dX : X.shape.length - k = pa.length := by simp [hX, hk]
  have zX : (downTo k).zip (n :: b) = (k, n) :: (downTo b.length).zip b := by rw [hk, downTo_succ]; rfl
  have small : ∀ l, l ∈ downTo b.length → len l = axisLen b (l - 1) := by
    intro l hl
    have := mem_downTo.1 hl
    simp only [hlen]
    rw [if_neg (by omega), if_neg (by omega)]
  obtain ⟨Y, h1, h2, h3⟩ := npEinsumEll_ok [(R, [k + 1, k]), (X, downTo k)] ((k + 1) :: downTo (k - 1)) len [k] P
    (by simp [hR, hX, downTo_length, hk]) (by
      simp only [List.map_cons, List.map_nil, List.length_cons, List.length_nil, downTo_length]
      rw [show 0 + 1 + 1 = 2 from rfl, dR, dX, hR, hX, List.take_left', List.take_left'] <;> simp [hP])
    (by
      intro op hop q hq
      rcases List.mem_cons.1 hop with rfl | hop
      · rw [show R.shape.length - [k + 1, k].length = pr.length from dR, hR, List.drop_left'] at hq
        · simp at hq
          rcases hq with rfl | rfl
          · right; simp [hlen]
          · right; simp [hlen]
        · rfl
      · obtain rfl := List.mem_singleton.1 hop
        rw [show X.shape.length - (downTo k).length = pa.length by rw [downTo_length, dX], hX, List.drop_left' rfl, zX] at hq
        right
        rcases List.mem_cons.1 hq with rfl | hq
        · simp [hlen]
        · rw [small _ (List.of_mem_zip hq).1]
          exact zip_downTo hq)
    (by
      rintro l ⟨op, hop, hl⟩
      right
      have hl' : l = k + 1 ∨ l ∈ downTo k := by
        rcases List.mem_cons.1 hop with rfl | hop
        · simp at hl
          rcases hl with rfl | rfl
          · exact .inl rfl
          · exact .inr (mem_downTo.2 (by omega))
        · obtain rfl := List.mem_singleton.1 hop
          exact .inr hl
      rcases hl' with rfl | hl'
      · refine ⟨_, List.mem_cons_self, ?_⟩
        rw [show R.shape.length - [k + 1, k].length = pr.length from dR, hR, List.drop_left' rfl]
        simp [hlen]
      · refine ⟨_, List.mem_cons_of_mem _ (List.mem_singleton.2 rfl), ?_⟩
        rw [show X.shape.length - (downTo k).length = pa.length by rw [downTo_length, dX], hX, List.drop_left' rfl, zX]
        rw [hk, downTo_succ] at hl'
        rcases List.mem_cons.1 hl' with rfl | hl'
        · simp [hlen, hk]
        · rw [small _ hl']
          exact List.mem_cons_of_mem _ (mem_zip_downTo hl'))
    (by
      refine List.nodup_cons.2 ⟨fun h => ?_, downTo_nodup _⟩
      have := mem_downTo.1 h
      omega)
    (by
      intro l hl
      rcases List.mem_cons.1 hl with rfl | hl
      · exact ⟨_, List.mem_cons_self, by simp⟩
      · have := mem_downTo.1 hl
        exact ⟨_, List.mem_cons_of_mem _ (List.mem_singleton.2 rfl), mem_downTo.2 (by omega)⟩)
    (by simp)
    (by
      intro l
      simp only [List.mem_cons, List.not_mem_nil, or_false, exists_eq_or_imp, exists_eq_left, mem_downTo]
      omega)
  have hb : (downTo (k - 1)).map len = b := by
    rw [show k - 1 = b.length by omega]
    conv_rhs => rw [← downTo_map_axisLen b]
    exact List.map_congr_left small
  refine ⟨Y, h1, by rw [h2, List.map_cons, hb]; simp [hlen], fun p hp i hi l hl => ?_⟩
  have hll := length_of_mem_indices hl
  set e : Nat → Nat := fun x => if x = k + 1 then i else coord l (x - 1) with he
  have eb : ∀ f : Nat → Nat, (∀ x ∈ downTo b.length, f x = coord l (x - 1)) → (downTo b.length).map f = l := by
    intro f hf
    rw [List.map_congr_left hf, ← hll, downTo_map_coord]
  have e1 : ((k + 1) :: downTo (k - 1)).map e = i :: l := by
    rw [List.map_cons, show k - 1 = b.length by omega, eb]
    · simp [he]
    · intro x hx
      have := mem_downTo.1 hx
      simp only [he]
      rw [if_neg (by omega)]
  have := h3 (coord p) e (coord_valid hp) (by
    intro x hx
    rcases List.mem_cons.1 hx with rfl | hx
    · simpa [he, hlen] using hi
    · have hx' := mem_downTo.1 hx
      rw [show k - 1 = b.length by omega] at hx
      rw [small x hx]
      simp only [he]
      rw [if_neg (by omega)]
      exact coord_valid hl (x - 1))
  rw [e1] at this
  rw [coord_joinC]
  simp only [List.length_cons, downTo_length, hll] at this ⊢
  rw [show k - 1 + 1 = b.length + 1 by omega] at this
  rw [this]
  simp only [List.map_cons, List.map_nil, sumKeys, List.prod_cons, List.prod_nil, mul_one]
  have lk : len k = n := by simp [hlen]
  rw [lk]
  refine Finset.sum_congr rfl fun j hj => ?_
  have u1 : Function.update e k j (k + 1) = i := by rw [Function.update_of_ne (by omega)]; simp [he]
  have u2 : Function.update e k j k = j := by simp
  rw [u1, u2]
  congr 1
  · rw [coord_joinC]; rfl
  · rw [hk, downTo_succ, List.map_cons, ← hk, u2, eb, coord_joinC]
    · simp [hll, hk, downTo_length]
    · intro x hx
      have := mem_downTo.1 hx
      rw [Function.update_of_ne (by omega)]
      simp only [he]
      rw [if_neg (by omega)]

end Verif
