import Verif.Model.Indexing
import Verif.Lemmas.Arr

/-!
# Lemmas on basic indexing
-/

namespace Verif
open Spec

def lenR (s : List Nat) (k : Nat) : Nat := s[k]?.getD 1

def restrictR (s : List Nat) (c : Nat → Nat) : Nat → Nat := fun k => if lenR s k = 1 then 0 else c k

theorem axisLen_reverse (s : List Nat) (k : Nat) : axisLen s.reverse k = lenR s k := by
  unfold axisLen lenR
  rw [List.reverse_reverse]

theorem restrict_reverse (s : List Nat) (c : Nat → Nat) : restrict s.reverse c = restrictR s c := by
  funext k
  unfold restrict restrictR
  rw [axisLen_reverse]

theorem consC_eta (c : Nat → Nat) : consC (c 0) (fun k => c (k + 1)) = c := by
  funext k
  cases k <;> rfl

theorem viewProj_append_none (r : List (Option Nat)) (n : Nat) (c : Nat → Nat) :
    viewProj (r ++ List.replicate n none) c = viewProj r c := by
  induction r generalizing c with
  | nil =>
    show viewProj (List.replicate n none) c = c
    induction n generalizing c with
    | zero => rfl
    | succ n ih =>
      show consC (c 0) (viewProj (List.replicate n none) fun k => c (k + 1)) = c
      rw [ih, consC_eta]
  | cons o r ih =>
    cases o with
    | none =>
      exact congrArg (consC (c 0)) (ih _)
    | some i => exact ih _

theorem ixSelects_append_none (r : List (Option Nat)) (n : Nat) (c : Nat → Nat) :
    ixSelects (r ++ List.replicate n none) c = ixSelects r c := by
  induction r generalizing c with
  | nil =>
    show ixSelects (List.replicate n none) c = true
    induction n generalizing c with
    | zero => rfl
    | succ n ih => exact ih _
  | cons o r ih =>
    cases o with
    | none => exact ih _
    | some i =>
      exact congrArg ((c 0 == i) && ·) (ih _)

theorem ixSelects_iff (r : List (Option Nat)) (c : Nat → Nat) :
    ixSelects r c = true ↔ ∀ k i, r[k]? = some (some i) → c k = i := by
  induction r generalizing c with
  | nil => simp [ixSelects]
  | cons o r ih =>
    cases o with
    | none =>
      show ixSelects r _ = true ↔ _
      rw [ih]
      constructor
      · intro h k i hk
        cases k with
        | zero => simp at hk
        | succ k => exact h k i (by simpa using hk)
      · intro h k i hk
        exact h (k + 1) i (by simpa using hk)
    | some j =>
      show (c 0 == j && ixSelects r _) = true ↔ _
      rw [Bool.and_eq_true, ih, beq_iff_eq]
      constructor
      · rintro ⟨h0, h⟩ k i hk
        cases k with
        | zero => simp at hk; omega
        | succ k => exact h k i (by simpa using hk)
      · intro h
        exact ⟨h 0 j (by simp), fun k i hk => h (k + 1) i (by simpa using hk)⟩

/-- Reading through an index and back. -/
theorem viewCoord_restrict (r : List (Option Nat)) (s : List Nat) (c : Nat → Nat)
    (hl : r.length = s.length)
    (h : ∀ k i, r[k]? = some (some i) → i = restrictR s c k) :
    viewCoord r (restrictR (viewShapeR s r) (viewProj r c)) = restrictR s c := by
  induction r generalizing s c with
  | nil =>
    cases s with
    | nil => rfl
    | cons d s => simp at hl
  | cons o r ih =>
    cases s with
    | nil => simp at hl
    | cons d s =>
      simp only [List.length_cons, Nat.add_right_cancel_iff] at hl
      have ih' := ih s (fun k => c (k + 1)) hl fun k i hk => by
        exact h (k + 1) i (by simpa using hk)
      cases o with
      | none =>
        show consC _ (viewCoord r _) = _
        funext k
        cases k with
        | zero => simp [consC, restrictR, lenR, viewShapeR, viewProj]
        | succ k =>
          show viewCoord r _ k = _
          have e : (fun k => restrictR (viewShapeR (d :: s) (none :: r)) (viewProj (none :: r) c) (k + 1)) =
              restrictR (viewShapeR s r) (viewProj r fun k => c (k + 1)) := by
            funext k
            rfl
          rw [e, ih']
          rfl
      | some i =>
        show consC i (viewCoord r (restrictR (viewShapeR s r) (viewProj r fun k => c (k + 1)))) = _
        rw [ih']
        funext k
        cases k with
        | zero =>
          show i = _
          exact h 0 i (by simp)
        | succ k => rfl

/-- Two shapes indexed alike: axis by axis comparisons carry over to the views. -/
theorem lenR_viewShapeR (P : Nat → Nat → Prop) (r : List (Option Nat)) (s t : List Nat)
    (h : ∀ k, P (lenR s k) (lenR t k)) (hs : r.length ≤ s.length) (ht : r.length ≤ t.length) (k : Nat) :
    P (lenR (viewShapeR s r) k) (lenR (viewShapeR t r) k) := by
  induction r generalizing s t k with
  | nil => cases s <;> cases t <;> exact h k
  | cons o r ih =>
    cases s with
    | nil => simp at hs
    | cons d s =>
    cases t with
    | nil => simp at ht
    | cons e t =>
      simp only [List.length_cons, Nat.add_le_add_iff_right] at hs ht
      have h' : ∀ k, P (lenR s k) (lenR t k) := fun k => by
        have := h (k + 1)
        simpa [lenR] using this
      cases o with
      | none =>
        cases k with
        | zero =>
          have := h 0
          simpa [lenR, viewShapeR] using this
        | succ k =>
          have := ih s t h' hs ht k
          simpa [lenR, viewShapeR] using this
      | some i => exact ih s t h' hs ht k

end Verif
