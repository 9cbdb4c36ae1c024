import Verif.Lemmas.Shape

/-!
# C01, C02, C03: broadcasting of shapes and plates
-/

namespace Verif
open Spec

/-! ## C01 -/

/-- `broadcasted_shape` returns `r` iff `r` is the broadcast shape according to NumPy's rule. -/
theorem C01_broadcasted_shape_iff (shapes : List (List Nat)) (r : List Nat) :
    broadcastedShape shapes = .ok r ↔ IsBroadcast shapes r :=
  broadcastedShape_ok shapes r

example : broadcastedShape [[3, 1, 5], [4, 1], [], [1, 5]] = .ok [3, 4, 5] := by decide
example : IsBroadcast [[3, 1, 5], [4, 1], [], [1, 5]] [3, 4, 5] :=
  (C01_broadcasted_shape_iff _ _).1 (by decide)
example : broadcastedShape [[0, 1], [1], [3]] = .ok [0, 3] := by decide

/-- It raises exactly when the shapes are not mutually broadcastable, and the exception is a
`ValueError` (in particular never an `IndexError`). -/
theorem C01_broadcasted_shape_raises_iff (shapes : List (List Nat)) :
    (∃ e, broadcastedShape shapes = .error e) ↔ ¬ Compatible shapes := by
  rw [← exists_isBroadcast_iff]
  constructor
  · rintro ⟨e, he⟩ ⟨r, hr⟩
    rw [(broadcastedShape_ok _ _).2 hr] at he
    cases he
  · intro h
    cases hb : broadcastedShape shapes with
    | error e => exact ⟨e, rfl⟩
    | ok r => exact absurd ⟨r, (broadcastedShape_ok _ _).1 hb⟩ h

theorem C01_broadcasted_shape_error_class (shapes : List (List Nat)) (e : PyErr)
    (h : broadcastedShape shapes = .error e) : e = .valueError :=
  broadcastedShape_error h

example : broadcastedShape [[2, 3], [1], [0, 3]] = .error .valueError := by decide

/-- The rule determines the result uniquely. -/
theorem C01_broadcast_unique (shapes : List (List Nat)) (r r' : List Nat)
    (h : IsBroadcast shapes r) (h' : IsBroadcast shapes r') : r = r' :=
  isBroadcast_unique h h'

/-! ## C02 -/

theorem isBroadcast_of_same_elements {shapes shapes' : List (List Nat)} {r : List Nat}
    (h : ∀ s, s ∈ shapes ↔ s ∈ shapes') (hr : IsBroadcast shapes r) : IsBroadcast shapes' r := by
  refine ⟨?_, ?_, ?_, ?_⟩
  · intro s hs; exact hr.rank_ge s ((h s).2 hs)
  · rcases hr.rank_le with h1 | ⟨s, hs, h1⟩
    · exact .inl h1
    · exact .inr ⟨s, (h s).1 hs, h1⟩
  · intro k s hs; exact hr.fits k s ((h s).2 hs)
  · intro k
    rcases hr.attained k with h1 | ⟨s, hs, h1⟩
    · exact .inl h1
    · exact .inr ⟨s, (h s).1 hs, h1⟩

/-- Permuting or repeating the arguments changes neither the result nor whether it raises. -/
theorem C02_broadcasted_shape_same_elements (shapes shapes' : List (List Nat))
    (h : ∀ s, s ∈ shapes ↔ s ∈ shapes') :
    broadcastedShape shapes = broadcastedShape shapes' := by
  cases h1 : broadcastedShape shapes with
  | ok r =>
    exact ((broadcastedShape_ok _ _).2
      (isBroadcast_of_same_elements h ((broadcastedShape_ok _ _).1 h1))).symm
  | error e =>
    cases h2 : broadcastedShape shapes' with
    | ok r =>
      have := (broadcastedShape_ok _ _).2
        (isBroadcast_of_same_elements (fun s => (h s).symm) ((broadcastedShape_ok _ _).1 h2))
      rw [h1] at this
      cases this
    | error e' => rw [broadcastedShape_error h1, broadcastedShape_error h2]

theorem C02_broadcasted_shape_perm (shapes shapes' : List (List Nat)) (h : shapes.Perm shapes') :
    broadcastedShape shapes = broadcastedShape shapes' :=
  C02_broadcasted_shape_same_elements _ _ (fun _ => h.mem_iff)

example : broadcastedShape [[2, 1], [3], [2, 1], []] = broadcastedShape [[], [3], [2, 1]] :=
  C02_broadcasted_shape_same_elements _ _ (by intro s; simp; grind)

/-- Grouping: broadcasting a group first and then its result with the rest is the same as
broadcasting all at once, including when an exception is raised. -/
theorem C02_broadcasted_shape_group (group rest : List (List Nat)) :
    (broadcastedShape group >>= fun g => broadcastedShape (g :: rest))
      = broadcastedShape (group ++ rest) := by
  cases hg : broadcastedShape group with
  | error e =>
    have he := broadcastedShape_error hg
    cases h2 : broadcastedShape (group ++ rest) with
    | error e' => rw [broadcastedShape_error h2, he]; rfl
    | ok r =>
      exfalso
      have hr := (broadcastedShape_ok _ _).1 h2
      have hc : Compatible group := by
        intro k s hs t ht
        have h1 := hr.fits k s (by simp [hs])
        have h2 := hr.fits k t (by simp [ht])
        omega
      obtain ⟨r', hr'⟩ := (exists_isBroadcast_iff _).2 hc
      rw [(broadcastedShape_ok _ _).2 hr'] at hg
      cases hg
  | ok g =>
    have hgb := (broadcastedShape_ok _ _).1 hg
    have key := isBroadcast_group (rest := rest) hgb
    show broadcastedShape (g :: rest) = _
    cases h2 : broadcastedShape (group ++ rest) with
    | ok r => rw [broadcastedShape_ok, key, ← broadcastedShape_ok, h2]
    | error e =>
      cases h3 : broadcastedShape (g :: rest) with
      | error e' => rw [broadcastedShape_error h2, broadcastedShape_error h3]
      | ok r =>
        rw [(broadcastedShape_ok _ _).2 ((key r).1 ((broadcastedShape_ok _ _).1 h3))] at h2
        cases h2

example : (broadcastedShape [[2, 1], [1, 3]] >>= fun g => broadcastedShape [g, [4, 1, 1]])
    = .ok [4, 2, 3] := by
  rw [C02_broadcasted_shape_group]; decide

/-- Associativity of the binary operation. -/
theorem C02_broadcasted_shape_assoc (a b c : List Nat) :
    (broadcastedShape [a, b] >>= fun g => broadcastedShape [g, c])
      = (broadcastedShape [b, c] >>= fun g => broadcastedShape [a, g]) := by
  rw [C02_broadcasted_shape_group [a, b] [c]]
  have h : ∀ g, broadcastedShape [a, g] = broadcastedShape [g, a] := fun g =>
    C02_broadcasted_shape_perm _ _ (List.Perm.swap _ _ _)
  simp only [h]
  rw [C02_broadcasted_shape_group [b, c] [a]]
  exact C02_broadcasted_shape_same_elements _ _ (by intro s; simp; grind)

/-- Idempotence: broadcasting a shape with itself gives it back. -/
theorem C02_broadcasted_shape_idem (a : List Nat) : broadcastedShape [a, a] = .ok a := by
  rw [broadcastedShape_ok]
  refine ⟨by simp, .inr ⟨a, by simp, rfl⟩, by simp, fun k => .inr ⟨a, by simp, rfl⟩⟩

theorem checkParentPlates_eq (p : List Nat) (ps : List (List Nat)) :
    ((∀ q ∈ ps, BroadcastsTo q p) ∧ checkParentPlates p ps = .ok ()) ∨
    ((¬ ∀ q ∈ ps, BroadcastsTo q p) ∧ checkParentPlates p ps = .error .valueError) := by
  induction ps with
  | nil => left; simp [checkParentPlates]
  | cons q ps ih =>
    obtain ⟨b, hb, hiff⟩ := isShapeSubset_eq q p
    cases b with
    | true =>
      have hq := hiff.1 rfl
      rcases ih with ⟨h1, h2⟩ | ⟨h1, h2⟩
      · left
        refine ⟨by simpa [hq] using h1, ?_⟩
        simp [checkParentPlates, hb, bind, Except.bind, h2]
      · right
        refine ⟨fun h => h1 (fun q hq => h q (by simp [hq])), ?_⟩
        simp [checkParentPlates, hb, bind, Except.bind, h2]
    | false =>
      right
      have hq : ¬ BroadcastsTo q p := fun h => by simpa using hiff.2 h
      refine ⟨fun h => hq (h q (by simp)), ?_⟩
      simp [checkParentPlates, hb, bind, Except.bind, throw, throwThe, MonadExceptOf.throw]

/-- The plates of a node (given or inferred) do not depend on the order, or on repetitions, of the
plates of its parents. -/
theorem C02_total_plates_same_elements (plates : Option (List Nat)) (ps ps' : List (List Nat))
    (h : ∀ s, s ∈ ps ↔ s ∈ ps') : totalPlates plates ps = totalPlates plates ps' := by
  cases plates with
  | none => exact C02_broadcasted_shape_same_elements _ _ h
  | some p =>
    unfold totalPlates
    have : (∀ q ∈ ps, BroadcastsTo q p) ↔ (∀ q ∈ ps', BroadcastsTo q p) := by simp [h]
    rcases checkParentPlates_eq p ps with ⟨h1, h2⟩ | ⟨h1, h2⟩ <;>
    rcases checkParentPlates_eq p ps' with ⟨h3, h4⟩ | ⟨h3, h4⟩ <;>
    simp_all

/-- Explicit plates are accepted iff the plates of every parent broadcast to them, and then they are
used as given; otherwise `ValueError`. -/
theorem C02_total_plates_explicit (p : List Nat) (ps : List (List Nat)) :
    ((∀ q ∈ ps, BroadcastsTo q p) → totalPlates (some p) ps = .ok p) ∧
    ((¬ ∀ q ∈ ps, BroadcastsTo q p) → totalPlates (some p) ps = .error .valueError) := by
  unfold totalPlates
  rcases checkParentPlates_eq p ps with ⟨h1, h2⟩ | ⟨h1, h2⟩
  · exact ⟨fun _ => by simp [h2, bind, Except.bind, pure, Except.pure], fun h => absurd h1 h⟩
  · exact ⟨fun h => absurd h h1, fun _ => by simp [h2, bind, Except.bind]⟩

/-- Inferred plates are the least shape all parents broadcast to: every parent broadcasts to it, and
it broadcasts to every shape all parents broadcast to. -/
theorem C02_total_plates_inferred_least (ps : List (List Nat)) (r : List Nat)
    (h : totalPlates none ps = .ok r) :
    (∀ q ∈ ps, BroadcastsTo q r) ∧
    ∀ t, (∀ q ∈ ps, BroadcastsTo q t) → BroadcastsTo r t := by
  have hb := (broadcastedShape_ok _ _).1 h
  refine ⟨fun q hq => ⟨hb.rank_ge q hq, fun k => hb.fits k q hq⟩, fun t ht => ⟨?_, fun k => ?_⟩⟩
  · rcases hb.rank_le with h1 | ⟨s, hs, h1⟩
    · omega
    · have := (ht s hs).1; omega
  · rcases hb.attained k with h1 | ⟨s, hs, h1⟩
    · exact .inl h1
    · have := (ht s hs).2 k; omega

example : totalPlates (some [4, 3]) [[3], [4, 1]] = .ok [4, 3] := by decide
example : totalPlates (some [4, 3]) [[2], [4, 1]] = .error .valueError := by decide
example : totalPlates none [[3], [4, 1]] = .ok [4, 3] := by decide

/-! ## C03 -/

/-- `is_shape_subset(sub, full)` never raises, and is true iff `sub` broadcasts to exactly `full`. -/
theorem C03_is_shape_subset_iff (sub full : List Nat) :
    (BroadcastsTo sub full → isShapeSubset sub full = .ok true) ∧
    (¬ BroadcastsTo sub full → isShapeSubset sub full = .ok false) := by
  obtain ⟨b, hb, h⟩ := isShapeSubset_eq sub full
  cases b with
  | true => exact ⟨fun _ => hb, fun h' => absurd (h.1 rfl) h'⟩
  | false => exact ⟨fun h' => by simpa using h.2 h', fun _ => hb⟩

theorem isShapeSubset_true (sub full : List Nat) :
    isShapeSubset sub full = .ok true ↔ BroadcastsTo sub full := by
  obtain ⟨b, hb, h⟩ := isShapeSubset_eq sub full
  rw [hb, ← h]; simp

/-- It is true iff broadcasting the two shapes succeeds and gives `full`. -/
theorem C03_is_shape_subset_iff_broadcast (sub full : List Nat) :
    isShapeSubset sub full = .ok true ↔ broadcastedShape [sub, full] = .ok full := by
  rw [isShapeSubset_true, broadcastedShape_ok]
  constructor
  · rintro ⟨h1, h2⟩
    refine ⟨by simpa using h1, .inr ⟨full, by simp, rfl⟩, ?_, fun k => .inr ⟨full, by simp, rfl⟩⟩
    intro k s hs
    simp at hs
    rcases hs with rfl | rfl
    · exact h2 k
    · exact .inr rfl
  · intro h
    exact ⟨h.rank_ge sub (by simp), fun k => h.fits k sub (by simp)⟩

theorem C03_refl (s : List Nat) : isShapeSubset s s = .ok true :=
  (isShapeSubset_true _ _).2 ⟨Nat.le_refl _, fun _ => .inr rfl⟩

theorem C03_trans (a b c : List Nat) (h1 : isShapeSubset a b = .ok true)
    (h2 : isShapeSubset b c = .ok true) : isShapeSubset a c = .ok true := by
  rw [isShapeSubset_true] at *
  refine ⟨Nat.le_trans h1.1 h2.1, fun k => ?_⟩
  have := h1.2 k
  have := h2.2 k
  omega

/-- Antisymmetric, in fact without any exception (mutual subsets have equal rank). -/
theorem C03_antisymm (a b : List Nat) (h1 : isShapeSubset a b = .ok true)
    (h2 : isShapeSubset b a = .ok true) : a = b := by
  rw [isShapeSubset_true] at *
  apply axisLen_ext (Nat.le_antisymm h1.1 h2.1)
  intro k
  have := h1.2 k
  have := h2.2 k
  omega

example : isShapeSubset [1, 5] [3, 4, 5] = .ok true := by decide
example : isShapeSubset [2, 5] [3, 4, 5] = .ok false := by decide
example : isShapeSubset [1, 4, 5] [4, 5] = .ok false := by decide

end Verif
