import Mathlib.Algebra.Module.LinearMap.Defs
import Mathlib.Algebra.BigOperators.Group.List.Basic
import Verif.Model.Add
import Verif.Lemmas.Linalg

/-!
# C16: the `Add` node

`P` are the plates of the node and `dims` the shape of the variable, so the arrays of the moments have the
shapes `P ++ dims` and `P ++ dims ++ dims` (plates may be broadcast).  The element of the plate `p` at the
row `d` and the column `e` is `joinC n e (joinC n d p)`.
-/

namespace Verif
open Spec

section
variable {α : Type} [CommSemiring α] {P dims : List Nat}

/-- Moments of one parent. -/
def IsGaussianMoments (P dims : List Nat) (u : Arr α × Arr α) : Prop :=
  PlatesDims u.1.shape P dims ∧ PlatesDims u.2.shape P (dims ++ dims)

theorem npAdd_platesDims {X Y : Arr α} {P dims : List Nat} (hX : PlatesDims X.shape P dims)
    (hY : PlatesDims Y.shape P dims) :
    ∃ r, npAdd X Y = .ok r ∧ PlatesDims r.shape P dims ∧ ∀ c, r.at c = X.at c + Y.at c := by
  obtain ⟨r, hr, hB, hb, hat⟩ := npAdd_common hX.broadcastsTo hY.broadcastsTo
  exact ⟨r, hr, platesDims_of_isBroadcast hB hb (by simp) hX, hat⟩

theorem foldAdd_ok (Xs : List (Arr α)) (X : Arr α) (hX : PlatesDims X.shape P dims)
    (h : ∀ Y ∈ Xs, PlatesDims Y.shape P dims) :
    ∃ r, Xs.foldlM npAdd X = Except.ok (ε := PyErr) r ∧ PlatesDims r.shape P dims ∧
      ∀ c, r.at c = X.at c + (Xs.map (·.at c)).sum := by
  induction Xs generalizing X with
  | nil => exact ⟨X, rfl, hX, fun c => by simp⟩
  | cons Y Ys ih =>
    obtain ⟨r1, hr1, hp1, hat1⟩ := npAdd_platesDims hX (h Y (by simp))
    obtain ⟨r, hr, hp, hat⟩ := ih r1 hp1 fun Z hZ => h Z (List.mem_cons_of_mem _ hZ)
    refine ⟨r, ?_, hp, fun c => ?_⟩
    · rw [List.foldlM_cons, hr1]
      exact hr
    · rw [hat, hat1, List.map_cons, List.sum_cons, add_assoc]

theorem reduceAdd_ok (Xs : List (Arr α)) (hne : Xs ≠ []) (h : ∀ Y ∈ Xs, PlatesDims Y.shape P dims) :
    ∃ r, reduceAdd Xs = .ok r ∧ PlatesDims r.shape P dims ∧ ∀ c, r.at c = (Xs.map (·.at c)).sum := by
  cases Xs with
  | nil => exact absurd rfl hne
  | cons X Xs =>
    obtain ⟨r, hr, hp, hat⟩ := foldAdd_ok Xs X (h X (by simp)) fun Y hY => h Y (List.mem_cons_of_mem _ hY)
    exact ⟨r, hr, hp, fun c => by rw [hat, List.map_cons, List.sum_cons]⟩

theorem addCross_ok {x y u1 : Arr α} (hx : PlatesDims x.shape P dims) (hy : PlatesDims y.shape P dims)
    (hu : PlatesDims u1.shape P (dims ++ dims)) :
    ∃ r, addCross dims.length x u1 y = .ok r ∧ PlatesDims r.shape P (dims ++ dims) ∧
      ∀ d e p, r.at (joinC dims.length e (joinC dims.length d p)) =
        u1.at (joinC dims.length e (joinC dims.length d p)) +
          (x.at (joinC dims.length d p) * y.at (joinC dims.length e p) +
            x.at (joinC dims.length e p) * y.at (joinC dims.length d p)) := by
  obtain ⟨xy, hxy, hxyb, hxyl, hxyat⟩ := linOuter_ok hx.broadcastsTo hy.broadcastsTo rfl hx.full.1 hy.full.1
  obtain ⟨yx, hyx, hyxb, hyxat⟩ := linTranspose_ok hxyb hxyl
  have hu' := hu.broadcastsTo
  rw [← List.append_assoc] at hu'
  obtain ⟨r1, hr1, hB1, hb1, hat1⟩ := npAdd_common hu' hxyb
  rw [List.append_assoc] at hb1
  have hp1 := platesDims_of_isBroadcast hB1 hb1 (by simp) hu
  rw [← List.append_assoc] at hb1
  obtain ⟨r, hr, hB, hb, hat⟩ := npAdd_common hb1 hyxb
  rw [List.append_assoc] at hb
  refine ⟨r, ?_, platesDims_of_isBroadcast hB hb (by simp) hp1, fun d e p => ?_⟩
  · unfold addCross
    rw [hxy]
    simp only [bind, Except.bind]
    rw [hyx]
    simp only
    rw [hr1]
    exact hr
  · rw [hat, hat1, hxyat, hyxat, hxyat, add_assoc]

/-- Sum over all pairs of different elements of the list. -/
def pairSum {β : Type} (f : β → β → α) : List β → α
  | [] => 0
  | x :: xs => (xs.map (f x)).sum + pairSum f xs

theorem foldCross_ok (ys : List (Arr α)) {x u1 : Arr α} (hx : PlatesDims x.shape P dims)
    (hys : ∀ y ∈ ys, PlatesDims y.shape P dims) (hu : PlatesDims u1.shape P (dims ++ dims)) :
    ∃ r, ys.foldlM (addCross dims.length x) u1 = .ok r ∧ PlatesDims r.shape P (dims ++ dims) ∧
      ∀ d e p, r.at (joinC dims.length e (joinC dims.length d p)) =
        u1.at (joinC dims.length e (joinC dims.length d p)) +
          (ys.map fun y => x.at (joinC dims.length d p) * y.at (joinC dims.length e p) +
            x.at (joinC dims.length e p) * y.at (joinC dims.length d p)).sum := by
  induction ys generalizing u1 with
  | nil => exact ⟨u1, rfl, hu, fun d e p => by simp⟩
  | cons y ys ih =>
    obtain ⟨r1, hr1, hp1, hat1⟩ := addCross_ok hx (hys y (by simp)) hu
    obtain ⟨r, hr, hp, hat⟩ := ih (fun y hy => hys y (List.mem_cons_of_mem _ hy)) hp1
    refine ⟨r, ?_, hp, fun d e p => ?_⟩
    · rw [List.foldlM_cons, hr1]
      exact hr
    · rw [hat, hat1, List.map_cons, List.sum_cons, add_assoc]

theorem addLoop_ok (xs : List (Arr α)) {u1 : Arr α} (hxs : ∀ y ∈ xs, PlatesDims y.shape P dims)
    (hu : PlatesDims u1.shape P (dims ++ dims)) :
    ∃ r, addLoop dims.length u1 xs = .ok r ∧ PlatesDims r.shape P (dims ++ dims) ∧
      ∀ d e p, r.at (joinC dims.length e (joinC dims.length d p)) =
        u1.at (joinC dims.length e (joinC dims.length d p)) +
          pairSum (fun x y => x.at (joinC dims.length d p) * y.at (joinC dims.length e p) +
            x.at (joinC dims.length e p) * y.at (joinC dims.length d p)) xs := by
  induction xs generalizing u1 with
  | nil => exact ⟨u1, rfl, hu, fun d e p => by simp [pairSum]⟩
  | cons x xs ih =>
    have hxs' : ∀ y ∈ xs, PlatesDims y.shape P dims := fun y hy => hxs y (List.mem_cons_of_mem _ hy)
    obtain ⟨r1, hr1, hp1, hat1⟩ := foldCross_ok xs (hxs x (by simp)) hxs' hu
    obtain ⟨r, hr, hp, hat⟩ := ih hxs' hp1
    refine ⟨r, ?_, hp, fun d e p => ?_⟩
    · unfold addLoop
      rw [hr1]
      exact hr
    · rw [hat, hat1, add_assoc]
      rfl

/-- The moments as sums. -/
theorem addMoments_ok (us : List (Arr α × Arr α)) (hne : us ≠ []) (hus : ∀ u ∈ us, IsGaussianMoments P dims u) :
    ∃ v, addMoments dims.length us = .ok v ∧ IsGaussianMoments P dims v ∧
      (∀ c, v.1.at c = (us.map fun u => u.1.at c).sum) ∧
      ∀ d e p, v.2.at (joinC dims.length e (joinC dims.length d p)) =
        (us.map fun u => u.2.at (joinC dims.length e (joinC dims.length d p))).sum +
          pairSum (fun u w => u.1.at (joinC dims.length d p) * w.1.at (joinC dims.length e p) +
            u.1.at (joinC dims.length e p) * w.1.at (joinC dims.length d p)) us := by
  obtain ⟨v0, hv0, hp0, hat0⟩ := reduceAdd_ok (P := P) (dims := dims) (us.map (·.1)) (by simpa using hne) (by
    intro Y hY
    obtain ⟨u, hu, rfl⟩ := List.mem_map.1 hY
    exact (hus u hu).1)
  obtain ⟨w, hw, hpw, hatw⟩ := reduceAdd_ok (P := P) (dims := dims ++ dims) (us.map (·.2)) (by simpa using hne) (by
    intro Y hY
    obtain ⟨u, hu, rfl⟩ := List.mem_map.1 hY
    exact (hus u hu).2)
  obtain ⟨v1, hv1, hp1, hat1⟩ := addLoop_ok (P := P) (dims := dims) (us.map (·.1)) (by
    intro Y hY
    obtain ⟨u, hu, rfl⟩ := List.mem_map.1 hY
    exact (hus u hu).1) hpw
  have hpair : ∀ (f : Arr α → Arr α → α) (l : List (Arr α × Arr α)),
      pairSum f (l.map (·.1)) = pairSum (fun u w => f u.1 w.1) l := by
    intro f l
    induction l with
    | nil => rfl
    | cons a l ih =>
      show _ + _ = _ + _
      rw [ih, List.map_map]
      rfl
  refine ⟨(v0, v1), ?_, ⟨hp0, hp1⟩, fun c => ?_, fun d e p => ?_⟩
  · unfold addMoments
    rw [hv0]
    simp only [bind, Except.bind]
    rw [hw]
    simp only
    rw [hv1]
    rfl
  · show v0.at c = _
    rw [hat0, List.map_map]
    rfl
  · show v1.at _ = _
    rw [hat1, hatw, hpair, List.map_map]
    rfl

theorem second_moment_sum {Ω : Type} (E : (Ω → α) →ₗ[α] α) (us : List (Arr α × Arr α))
    (X Y : Nat → Ω → α) (f g h : Arr α × Arr α → α)
    (hf : ∀ (i : Nat) u, us[i]? = some u → f u = E (X i)) (hg : ∀ (i : Nat) u, us[i]? = some u → g u = E (Y i))
    (hh : ∀ (i : Nat) u, us[i]? = some u → h u = E (X i * Y i))
    (hind : ∀ i j, i < us.length → j < us.length → i ≠ j → E (X i * Y j) = E (X i) * E (Y j)) :
    (us.map h).sum + pairSum (fun u w => f u * g w + g u * f w) us =
      E ((∑ i ∈ Finset.range us.length, X i) * ∑ i ∈ Finset.range us.length, Y i) ∧
    (us.map f).sum = E (∑ i ∈ Finset.range us.length, X i) ∧
    (us.map g).sum = E (∑ i ∈ Finset.range us.length, Y i) := by
  induction us generalizing X Y with
  | nil => simp [pairSum]
  | cons u us ih =>
    obtain ⟨h1, h2, h3⟩ := ih (fun i => X (i + 1)) (fun i => Y (i + 1)) (fun i => hf (i + 1)) (fun i => hg (i + 1))
      (fun i => hh (i + 1)) (fun i j hi hj hij => hind (i + 1) (j + 1) (by simpa using hi) (by simpa using hj)
        (by omega))
    have e1 : f u = E (X 0) := hf 0 u rfl
    have e2 : g u = E (Y 0) := hg 0 u rfl
    have e3 : h u = E (X 0 * Y 0) := hh 0 u rfl
    have hX : E (X 0 * ∑ i ∈ Finset.range us.length, Y (i + 1)) =
        E (X 0) * E (∑ i ∈ Finset.range us.length, Y (i + 1)) := by
      rw [Finset.mul_sum, map_sum, map_sum, Finset.mul_sum]
      apply Finset.sum_congr rfl
      intro i hi
      have := Finset.mem_range.1 hi
      exact hind 0 (i + 1) (by simp) (by simpa using this) (by omega)
    have hY : E ((∑ i ∈ Finset.range us.length, X (i + 1)) * Y 0) =
        E (∑ i ∈ Finset.range us.length, X (i + 1)) * E (Y 0) := by
      rw [Finset.sum_mul, map_sum, map_sum, Finset.sum_mul]
      apply Finset.sum_congr rfl
      intro i hi
      have := Finset.mem_range.1 hi
      exact hind (i + 1) 0 (by simpa using this) (by simp) (by omega)
    have hsum : ∀ Z : Nat → Ω → α, ∑ i ∈ Finset.range (u :: us).length, Z i =
        Z 0 + ∑ i ∈ Finset.range us.length, Z (i + 1) := by
      intro Z
      rw [List.length_cons, Finset.sum_range_succ', add_comm]
    have hp : (us.map fun w => f u * g w + g u * f w).sum =
        f u * (us.map g).sum + g u * (us.map f).sum := by
      rw [List.sum_map_add, List.sum_map_mul_left, List.sum_map_mul_left]
    refine ⟨?_, ?_, ?_⟩
    · rw [hsum, hsum, add_mul, mul_add, mul_add, map_add, map_add, map_add, ← h1, hX, hY]
      show (h u + (us.map h).sum) + ((us.map fun w => f u * g w + g u * f w).sum + _) = _
      rw [hp, e1, e2, e3, ← h2, ← h3]
      ring
    · rw [hsum, map_add, ← h2, List.map_cons, List.sum_cons, e1]
    · rw [hsum, map_add, ← h3, List.map_cons, List.sum_cons, e2]

/-- **C16** Let `E` be an expectation (a linear functional on random variables) and `X i` the random arrays
of the plate `p`, with the given first and second moments and with uncorrelated different inputs.  Then the
moments are those of the sum. -/
theorem C16_moments (us : List (Arr α × Arr α)) (hne : us ≠ []) (hus : ∀ u ∈ us, IsGaussianMoments P dims u) :
    ∃ v, addMoments dims.length us = .ok v ∧ IsGaussianMoments P dims v ∧
      ∀ (p : Nat → Nat) (Ω : Type) (E : (Ω → α) →ₗ[α] α) (X : Nat → (Nat → Nat) → Ω → α),
        (∀ (i : Nat) u d, us[i]? = some u → ValidIn dims d → u.1.at (joinC dims.length d p) = E (X i d)) →
        (∀ (i : Nat) u d e, us[i]? = some u → ValidIn dims d → ValidIn dims e →
          u.2.at (joinC dims.length e (joinC dims.length d p)) = E (X i d * X i e)) →
        (∀ i j d e, i < us.length → j < us.length → i ≠ j → E (X i d * X j e) = E (X i d) * E (X j e)) →
        ∀ d e, ValidIn dims d → ValidIn dims e →
          v.1.at (joinC dims.length d p) = E (∑ i ∈ Finset.range us.length, X i d) ∧
          v.2.at (joinC dims.length e (joinC dims.length d p)) =
            E ((∑ i ∈ Finset.range us.length, X i d) * ∑ i ∈ Finset.range us.length, X i e) := by
  obtain ⟨v, hv, hvs, h0, h1⟩ := addMoments_ok us hne hus
  refine ⟨v, hv, hvs, fun p Ω E X hm1 hm2 hind d e hd he => ?_⟩
  obtain ⟨a, b, _⟩ := second_moment_sum E us (fun i => X i d) (fun i => X i e)
    (fun u => u.1.at (joinC dims.length d p)) (fun u => u.1.at (joinC dims.length e p))
    (fun u => u.2.at (joinC dims.length e (joinC dims.length d p)))
    (fun i u hu => hm1 i u d hu hd) (fun i u hu => hm1 i u e hu he) (fun i u hu => hm2 i u d e hu hd he)
    (fun i j hi hj hij => hind i j d e hi hj hij)
  exact ⟨by rw [h0]; exact b, by rw [h1]; exact a⟩

theorem pairSum_insert {β : Type} (f : β → β → α) (hf : ∀ a b, f a b = f b a) (A B : List β) (w : β) :
    pairSum f (A ++ w :: B) = ((A ++ B).map (f w)).sum + pairSum f (A ++ B) := by
  induction A with
  | nil => rfl
  | cons a A ih =>
    show ((A ++ w :: B).map (f a)).sum + pairSum f (A ++ w :: B) =
      (f w a + ((A ++ B).map (f w)).sum) + (((A ++ B).map (f a)).sum + pairSum f (A ++ B))
    rw [ih, hf w a]
    simp only [List.map_append, List.map_cons, List.sum_append, List.sum_cons]
    ring

theorem sum_insert {β : Type} (f : β → α) (A B : List β) (w : β) :
    ((A ++ w :: B).map f).sum = f w + ((A ++ B).map f).sum := by
  simp only [List.map_append, List.map_cons, List.sum_append, List.sum_cons]
  ring

/-- **C16** The message to the parent `i`: for every value `w` of the moments of this parent the inner product
of the message from the children and the moments of the node is the inner product of the message to the
parent and `w`, plus a number that does not depend on `w`.  The second message from the children is
symmetric. -/
theorem C16_message (us : List (Arr α × Arr α)) (hus : ∀ u ∈ us, IsGaussianMoments P dims u) (i : Nat)
    (hi : i < us.length) (hN : 2 ≤ us.length) (m : Arr α × Arr α)
    (hm0 : BroadcastsTo m.1.shape (P ++ dims)) (hm1 : BroadcastsTo m.2.shape (P ++ dims ++ dims))
    (hsym : ∀ d e p, ValidIn dims d → ValidIn dims e → ValidIn P p →
      m.2.at (joinC dims.length e (joinC dims.length d p)) = m.2.at (joinC dims.length d (joinC dims.length e p))) :
    ∃ (y : Arr α × Arr α) (R : α), BroadcastsTo y.1.shape (P ++ dims) ∧ BroadcastsTo y.2.shape (P ++ dims ++ dims) ∧
      ∀ w, IsGaussianMoments P dims w → addMessage dims.length i m (us.set i w) = .ok y ∧
        ∃ v, addMoments dims.length (us.set i w) = .ok v ∧
          sumOver (P ++ dims) (fun c => m.1.at c * v.1.at c) +
              sumOver (P ++ dims ++ dims) (fun c => m.2.at c * v.2.at c) =
            sumOver (P ++ dims) (fun c => y.1.at c * w.1.at c) +
              sumOver (P ++ dims ++ dims) (fun c => y.2.at c * w.2.at c) + R := by
  set n := dims.length with hn
  set A := us.take i with hA
  set B := us.drop (i + 1) with hB
  have hset : ∀ w, us.set i w = A ++ w :: B := fun w => List.set_eq_take_append_cons_drop .. |>.trans (by
    rw [if_pos hi])
  have hAl : A.length = i := by rw [hA, List.length_take]; omega
  have hothers : ∀ w, (us.set i w).take i ++ (us.set i w).drop (i + 1) = A ++ B := by
    intro w
    rw [hset, List.take_left' hAl, show i + 1 = A.length + 1 by omega, List.drop_append]
    simp
  have hmem : ∀ u ∈ A ++ B, u ∈ us := by
    intro u hu
    rcases List.mem_append.1 hu with h | h
    · exact List.mem_of_mem_take h
    · exact List.mem_of_mem_drop h
  have hne : (A ++ B) ≠ [] := by
    intro h
    have := congrArg List.length h
    rw [List.length_append, hAl, hB, List.length_drop] at this
    simp only [List.length_nil] at this
    omega
  obtain ⟨s, hs, hsp, hsat⟩ := reduceAdd_ok (P := P) (dims := dims) ((A ++ B).map (·.1)) (by simpa using hne) (by
    intro Y hY
    obtain ⟨u, hu, rfl⟩ := List.mem_map.1 hY
    exact (hus u (hmem u hu)).1)
  obtain ⟨t, ht, htb, htat⟩ := linMvdot_ok (A := npScale 2 m.2) hm1 hsp rfl
  obtain ⟨y0, hy0, _, hyb, hyat⟩ := npAdd_common hm0 htb
  let rest : (Nat → Nat) → (Nat → Nat) → (Nat → Nat) → α := fun d e p =>
    ((A ++ B).map fun u => u.2.at (joinC n e (joinC n d p))).sum +
      pairSum (fun u w => u.1.at (joinC n d p) * w.1.at (joinC n e p) +
        u.1.at (joinC n e p) * w.1.at (joinC n d p)) (A ++ B)
  refine ⟨(y0, m.2), (sumOver P fun p => sumOver dims fun d => m.1.at (joinC n d p) * s.at (joinC n d p)) +
      sumOver P fun p => sumOver dims fun d => sumOver dims fun e =>
        m.2.at (joinC n e (joinC n d p)) * rest d e p, hyb, hm1, fun w hw => ⟨?_, ?_⟩⟩
  · unfold addMessage
    simp only [hothers]
    rw [hs]
    simp only [bind, Except.bind]
    rw [ht]
    simp only
    rw [hy0]
    rfl
  · have hall : ∀ u ∈ A ++ w :: B, IsGaussianMoments P dims u := by
      intro u hu
      rcases List.mem_append.1 hu with h | h
      · exact hus u (hmem u (List.mem_append_left _ h))
      · rcases List.mem_cons.1 h with rfl | h
        · exact hw
        · exact hus u (hmem u (List.mem_append_right _ h))
    obtain ⟨v, hv, hvs, h0, h1⟩ := addMoments_ok (P := P) (dims := dims) (A ++ w :: B) (by simp) hall
    rw [hset]
    refine ⟨v, hv, ?_⟩
    have e0 : ∀ d p, v.1.at (joinC n d p) = w.1.at (joinC n d p) + s.at (joinC n d p) := by
      intro d p
      rw [h0, sum_insert, hsat, List.map_map]
      rfl
    have e1 : ∀ d e p, v.2.at (joinC n e (joinC n d p)) = w.2.at (joinC n e (joinC n d p)) +
        (w.1.at (joinC n d p) * s.at (joinC n e p) + w.1.at (joinC n e p) * s.at (joinC n d p)) + rest d e p := by
      intro d e p
      have hss : ∀ c, s.at c = ((A ++ B).map fun u => u.1.at c).sum := by
        intro c
        rw [hsat, List.map_map]
        rfl
      rw [h1, sum_insert, pairSum_insert _ (fun a b => by ring), List.sum_map_add, List.sum_map_mul_left,
        List.sum_map_mul_left, ← hss, ← hss]
      simp only [rest]
      ring
    rw [List.append_assoc]
    simp only [sumOver_append, List.length_append]
    have hj : ∀ (d e p : Nat → Nat), joinC (n + n) (joinC n e d) p = joinC n e (joinC n d p) := by
      intro d e p
      funext k
      by_cases a : k < n
      · rw [joinC_lt _ _ (by omega), joinC_lt _ _ a, joinC_lt _ _ a]
      · rw [joinC_ge _ (joinC n d p) a]
        by_cases b : k < n + n
        · rw [joinC_lt _ _ b, joinC_ge _ _ a, joinC_lt _ _ (by omega)]
        · rw [joinC_ge _ _ b, joinC_ge _ _ (by omega), Nat.sub_sub]
    simp only [← hn, hj, e0]
    rw [← sumOver_add, ← sumOver_add, ← sumOver_add, ← sumOver_add]
    apply sumOver_congr_valid
    intro p hp
    have hy : ∀ d, ValidIn dims d → y0.at (joinC n d p) = m.1.at (joinC n d p) +
        sumOver dims fun e => 2 * m.2.at (joinC n e (joinC n d p)) * s.at (joinC n e p) := by
      intro d hd
      rw [hyat, htat d p hd hp]
      simp only [npScale_at, Nat.cast_ofNat]
      rfl
    have hcross : (sumOver dims fun d => sumOver dims fun e => m.2.at (joinC n e (joinC n d p)) *
          (w.1.at (joinC n e p) * s.at (joinC n d p))) =
        sumOver dims fun d => sumOver dims fun e => m.2.at (joinC n e (joinC n d p)) *
          (w.1.at (joinC n d p) * s.at (joinC n e p)) := by
      rw [sumOver_comm]
      apply sumOver_congr_valid
      intro d hd
      apply sumOver_congr_valid
      intro e he
      rw [hsym e d p he hd hp]
    have hL : (sumOver dims fun d => sumOver dims fun e => m.2.at (joinC n e (joinC n d p)) *
          v.2.at (joinC n e (joinC n d p))) =
        (sumOver dims fun d => sumOver dims fun e => m.2.at (joinC n e (joinC n d p)) *
          w.2.at (joinC n e (joinC n d p))) +
        ((sumOver dims fun d => sumOver dims fun e => m.2.at (joinC n e (joinC n d p)) *
          (w.1.at (joinC n d p) * s.at (joinC n e p))) +
        (sumOver dims fun d => sumOver dims fun e => m.2.at (joinC n e (joinC n d p)) *
          (w.1.at (joinC n e p) * s.at (joinC n d p)))) +
        sumOver dims fun d => sumOver dims fun e => m.2.at (joinC n e (joinC n d p)) * rest d e p := by
      simp only [← sumOver_add]
      congr 1
      funext d
      congr 1
      funext e
      rw [e1]
      ring
    have hR : (sumOver dims fun d => y0.at (joinC n d p) * w.1.at (joinC n d p)) =
        (sumOver dims fun d => m.1.at (joinC n d p) * w.1.at (joinC n d p)) +
        2 * sumOver dims fun d => sumOver dims fun e => m.2.at (joinC n e (joinC n d p)) *
          (w.1.at (joinC n d p) * s.at (joinC n e p)) := by
      rw [← sumOver_mul_left, ← sumOver_add]
      apply sumOver_congr_valid
      intro d hd
      rw [hy d hd, add_mul, ← sumOver_mul_right, ← sumOver_mul_left]
      congr 1
      congr 1
      funext e
      ring
    have hM : (sumOver dims fun d => m.1.at (joinC n d p) * (w.1.at (joinC n d p) + s.at (joinC n d p))) =
        (sumOver dims fun d => m.1.at (joinC n d p) * w.1.at (joinC n d p)) +
        sumOver dims fun d => m.1.at (joinC n d p) * s.at (joinC n d p) := by
      rw [← sumOver_add]
      congr 1
      funext d
      ring
    rw [hM, hL, hR, hcross]
    ring

end

/-! ### Examples -/

section
private def uA : Arr Int × Arr Int := (Arr.mk [2] fun c => (c 0 : Int) + 1, Arr.mk [2, 2] fun c => if c 0 = c 1 then 5 else 2)
private def uB : Arr Int × Arr Int := (Arr.mk [3, 2] fun c => (c 1 : Int) + 10 * c 0, Arr.mk [1, 2, 2] fun c => if c 0 = c 1 then 9 else 0)

/-- Two inputs of length 2, one without plates and one with three of them. -/
example : ∀ u ∈ [uA, uB], IsGaussianMoments [3] [2] u := by
  intro u hu
  simp only [List.mem_cons, List.not_mem_nil, or_false] at hu
  rcases hu with rfl | rfl
  · exact ⟨⟨[], rfl, by simp, fun k => .inl rfl⟩, ⟨[], rfl, by simp, fun k => .inl rfl⟩⟩
  · refine ⟨⟨[3], rfl, by simp, fun k => .inr rfl⟩, ⟨[1], rfl, by simp, fun k => .inl ?_⟩⟩
    cases k <;> simp [axisLen]

/-- The element (0, 1) of the second moment of the last plate: `2 + 0 + 1 * 12 + 2 * 2`. -/
example : (addMoments 1 [uA, uB]).toOption.map (fun v => (v.1.shape, v.1.at (coord [2, 1]), v.2.shape,
    v.2.at (coord [2, 0, 1]))) = some ([3, 2], 14, [3, 2, 2], 2 + 0 + (1 * 12 + 2 * 2)) := by decide +kernel

example : (addMessage 1 0 (Arr.mk [2] fun _ => 3, Arr.mk [2, 2] fun c => (c 0 + c 1 : Int)) [uA, uB]).toOption.map
    (fun v => (v.1.shape, v.1.at (coord [2, 1]))) = some ([3, 2], 3 + 2 * (1 * 2 + 2 * 12)) := by decide +kernel
end

end Verif
