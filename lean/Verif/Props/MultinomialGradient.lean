import Verif.Model.EuclideanGradient
import Verif.Props.Gate
import Verif.Props.Gradient
import Verif.Lemmas.Linalg

/-!
# C57: the gradient of Multinomial with its arrays
-/

namespace Verif
open Spec Function

section
variable {α : Type} [Field α]

theorem npDiv_common {X Y : Arr α} {B : List Nat} (hX : BroadcastsTo X.shape B) (hY : BroadcastsTo Y.shape B) :
    ∃ r, npDiv X Y = .ok r ∧ IsBroadcast [X.shape, Y.shape] r.shape ∧ BroadcastsTo r.shape B ∧
      ∀ c, r.at c = X.at c / Y.at c := by
  obtain ⟨s, hs, hb⟩ := isBroadcast_of_common hX hY
  refine ⟨⟨s, fun c => X.at c / Y.at c⟩, ?_, hs, hb, fun c => ?_⟩
  · unfold npDiv
    rw [(broadcastedShape_ok _ _).2 hs]
    rfl
  · show X.at (restrict s c) / Y.at (restrict s c) = _
    rw [at_restrict ⟨hs.rank_ge _ (by simp), fun k => hs.fits k _ (by simp)⟩,
      at_restrict ⟨hs.rank_ge _ (by simp), fun k => hs.fits k _ (by simp)⟩]

theorem axisLen_one_cons (s : List Nat) (k : Nat) : axisLen (1 :: s) k = axisLen s k := by
  rw [axisLen_cons]
  split
  · rw [axisLen_of_ge (by omega)]
  · rfl

omit [Field α] in
theorem leadingOne_at (X : Arr α) (c : Nat → Nat) :
    Arr.at { shape := 1 :: X.shape, get := fun c => X.get c } c = X.at c := by
  show X.get (restrict (1 :: X.shape) c) = X.get (restrict X.shape c)
  congr 1
  funext k
  unfold restrict
  rw [axisLen_one_cons]

/-- the sum over the categories, before the division -/
theorem multinomial_inner {g u : Arr α} {P : List Nat} {K : Nat} (hg : g.shape = P ++ [K])
    (hu : BroadcastsTo u.shape (P ++ [K])) :
    ∃ y, linInner [{ shape := 1 :: g.shape, get := fun c => g.get c }, u] 1 = .ok y ∧ BroadcastsTo y.shape (1 :: P) ∧
      ∀ p, ValidIn P p → y.at p = sumOver [K] fun d => g.at (joinC 1 d p) * u.at (joinC 1 d p) := by
  have h1 : BroadcastsTo (1 :: g.shape) ((1 :: P) ++ [K]) := by rw [hg]; exact Verif.BroadcastsTo.refl _
  have h2 : BroadcastsTo u.shape ((1 :: P) ++ [K]) := by
    refine ⟨by have := hu.1; simp at this ⊢; omega, fun k => ?_⟩
    rw [List.cons_append, axisLen_one_cons]
    exact hu.2 k
  obtain ⟨y, hy, hyb, hyat⟩ := (sumMultiply_last (a := { shape := 1 :: g.shape, get := fun c => g.get c }) (b := u)
    (Q := 1 :: P) (dims := [K]) h1 h2 (.inl ⟨by simp, fun k hk => by
      show axisLen (1 :: g.shape) k = _
      rw [axisLen_one_cons, hg, axisLen_append, if_pos hk]⟩)).1
  refine ⟨y, hy, hyb, fun p hp => ?_⟩
  rw [hyat p (fun k => by rw [axisLen_one_cons]; exact hp k)]
  simp only [leadingOne_at, List.length_singleton]

/-- **C57** for Multinomial, with arrays, for a number of trials without plates: whatever the plates, the result has at each
element what `multinomialGradient` says. -/
theorem C57_multinomial_arrays {g u N : Arr α} {P : List Nat} {K : Nat} (hg : g.shape = P ++ [K])
    (hu : BroadcastsTo u.shape (P ++ [K])) (hN : N.shape = []) :
    ∃ r, multinomialGradientArr N g u = .ok r ∧ r.shape = 1 :: (P ++ [K]) ∧
      ∀ (d p : Nat → Nat), d 0 < K → ValidIn P p → r.at (joinC 1 d p)
        = u.at (joinC 1 d p) * (g.at (joinC 1 d p)
          - (sumOver [K] fun e => g.at (joinC 1 e p) * u.at (joinC 1 e p)) / N.at (joinC 1 d p)) := by
  obtain ⟨y, hy, hyb, hyat⟩ := multinomial_inner hg hu
  set B := 1 :: (P ++ [K]) with hB
  have hBax : ∀ k, axisLen B k = axisLen (P ++ [K]) k := axisLen_one_cons _
  have huB : BroadcastsTo u.shape B := ⟨by have := hu.1; simp [hB] at this ⊢; omega, fun k => by rw [hBax]; exact hu.2 k⟩
  have hyB : BroadcastsTo (addTrailingAxes y 1).shape B := by
    refine ⟨?_, fun k => ?_⟩
    · have := hyb.1
      simp [addTrailingAxes, hB] at this ⊢
      omega
    · rw [axisLen_addTrailingAxes, hBax, axisLen_append, List.length_singleton]
      by_cases hk : k < 1
      · rw [if_pos hk]; exact .inl rfl
      · rw [if_neg hk, if_neg hk, ← axisLen_one_cons P]
        exact hyb.2 _
  have hNB : BroadcastsTo N.shape B := ⟨by rw [hN]; simp, fun k => by rw [hN]; exact .inl (axisLen_of_ge (by simp))⟩
  obtain ⟨q, hq, _, hqB, hqat⟩ := npDiv_common hyB hNB
  have hgB : BroadcastsTo (1 :: g.shape) B := by rw [hg]; exact Verif.BroadcastsTo.refl _
  obtain ⟨s, hs, hsb⟩ := isBroadcast_of_common hgB hqB
  have hsB : s = B := by
    refine axisLen_ext (Nat.le_antisymm hsb.1 ?_) fun k => ?_
    · have := hs.rank_ge (1 :: g.shape) (by simp)
      rwa [hg] at this
    · have h1 := hs.fits k (1 :: g.shape) (by simp)
      rw [hg] at h1
      rcases hsb.2 k with h2 | h2
      · rcases h1 with h1 | h1
        · rw [h2]; exact h1.symm
        · exact h1.symm
      · exact h2
  rw [hsB] at hs hsb
  have hsub : npSub { shape := 1 :: g.shape, get := fun c => g.get c } q
      = .ok { shape := B, get := fun c => Arr.at { shape := 1 :: g.shape, get := fun c => g.get c } c - q.at c } := by
    unfold npSub
    rw [(broadcastedShape_ok _ _).2 hs]
    rfl
  obtain ⟨r, hr, hrb, _, hrat⟩ := npMul_common (X := u)
    (Y := { shape := B, get := fun c => Arr.at { shape := 1 :: g.shape, get := fun c => g.get c } c - q.at c })
    huB (Verif.BroadcastsTo.refl B)
  refine ⟨r, ?_, ?_, fun d p hd hp => ?_⟩
  · unfold multinomialGradientArr
    simp only [bind, Except.bind]
    rw [hy]
    simp only
    rw [hq]
    simp only
    rw [hsub]
    exact hr
  · refine isBroadcast_unique hrb ?_
    have : IsBroadcast [u.shape, B] B := by
      refine ⟨fun t ht => ?_, .inr ⟨B, by simp, rfl⟩, fun k t ht => ?_, fun k => .inr ⟨B, by simp, rfl⟩⟩
      · rcases List.mem_cons.1 ht with rfl | ht
        · exact huB.1
        · rw [List.mem_singleton.1 ht]
      · rcases List.mem_cons.1 ht with rfl | ht
        · exact huB.2 k
        · rw [List.mem_singleton.1 ht]; exact .inr rfl
    exact this
  · rw [hrat]
    have hat : Arr.at { shape := B, get := fun c => Arr.at { shape := 1 :: g.shape, get := fun c => g.get c } c - q.at c }
        (joinC 1 d p) = g.at (joinC 1 d p) - q.at (joinC 1 d p) := by
      show Arr.at { shape := 1 :: g.shape, get := fun c => g.get c } (restrict B _) - q.at (restrict B _) = _
      rw [at_restrict hgB, at_restrict hqB, leadingOne_at]
    rw [hat, hqat, addTrailingAxes_at]
    have e : (fun k => joinC 1 d p (k + 1)) = p := by
      funext k
      simp [joinC]
    rw [e, hyat p hp]

end

/-- **C57 fails for Multinomial with a number of trials per plate**: `N` is aligned with the categories instead of the
plates, so with different numbers of plates and categories `compute_gradient` raises. -/
theorem C57_multinomial_trials_raises {α : Type} [Field α] {g u N : Arr α} {n K : Nat} (hg : g.shape = [n, K])
    (hu : u.shape = [n, K]) (hN : N.shape = [n]) (h1 : n ≠ 1) (h2 : K ≠ 1) (h3 : n ≠ K) :
    multinomialGradientArr N g u = .error .valueError := by
  have hB : IsBroadcast [1 :: g.shape, u.shape] [1, n, K] := by
    rw [hg, hu]
    refine ⟨by simp, .inr ⟨[1, n, K], by simp, rfl⟩, fun k s hs => ?_, fun k => .inr ⟨[1, n, K], by simp, rfl⟩⟩
    rcases List.mem_cons.1 hs with rfl | hs
    · exact .inr rfl
    · rw [List.mem_singleton.1 hs, axisLen_one_cons]; exact .inr rfl
  obtain ⟨y, hy, hys, _⟩ := sumMultiply_nokeepdims (args := [{ shape := 1 :: g.shape, get := fun c => g.get c }, u])
    (by simp) hB (axis := .seq (lastAxes 1)) (sumaxis := true) (out := [0, 1]) rfl (by decide) (by simp)
  have hys' : y.shape = [1, n] := hys
  unfold multinomialGradientArr linInner
  simp only [bind, Except.bind]
  rw [hy]
  simp only
  have hd : npDiv (addTrailingAxes y 1) N
      = .ok { shape := [1, n, n], get := fun c => (addTrailingAxes y 1).at c / N.at c } := by
    have hb : broadcastedShape [(addTrailingAxes y 1).shape, N.shape] = .ok [1, n, n] := by
      rw [broadcastedShape_ok]
      have e : (addTrailingAxes y 1).shape = [1, n, 1] := by
        show y.shape ++ [1] = _
        rw [hys']; rfl
      rw [e, hN]
      have hx : ∀ k, axisLen [1, n, 1] k = if k = 1 then n else 1 := by
        intro k
        match k with
        | 0 => rfl
        | 1 => rfl
        | 2 => rfl
        | k + 3 => rw [axisLen_of_ge (by simp), if_neg (by omega)]
      have hx2 : ∀ k, axisLen [n] k = if k = 0 then n else 1 := by
        intro k
        match k with
        | 0 => rfl
        | k + 1 => rw [axisLen_of_ge (by simp), if_neg (by omega)]
      have hx3 : ∀ k, axisLen [1, n, n] k = if k = 0 ∨ k = 1 then n else 1 := by
        intro k
        match k with
        | 0 => rfl
        | 1 => rfl
        | 2 => rfl
        | k + 3 => rw [axisLen_of_ge (by simp), if_neg (by omega)]
      refine ⟨by simp, .inr ⟨[1, n, 1], by simp, rfl⟩, fun k s hs => ?_, fun k => ?_⟩
      · rcases List.mem_cons.1 hs with rfl | hs
        · rw [hx, hx3]; split_ifs <;> omega
        · rw [List.mem_singleton.1 hs, hx2, hx3]; split_ifs <;> omega
      · rw [hx3]
        by_cases h0 : k = 0
        · exact .inr ⟨[n], by simp, by rw [hx2]; simp [h0]⟩
        · by_cases h1 : k = 1
          · exact .inr ⟨[1, n, 1], by simp, by rw [hx]; simp [h1]⟩
          · exact .inl (by simp [h0, h1])
    unfold npDiv
    rw [hb]
    rfl
  rw [hd]
  simp only
  have hs : broadcastedShape [1 :: g.shape, [1, n, n]] = .error .valueError := by
    cases h : broadcastedShape [1 :: g.shape, [1, n, n]] with
    | error e => rw [broadcastedShape_error h]
    | ok r =>
      exfalso
      have hr := (broadcastedShape_ok _ _).1 h
      have a := hr.fits 0 (1 :: g.shape) (by simp)
      have b := hr.fits 0 [1, n, n] (by simp)
      rw [hg] at a
      have a' : K = 1 ∨ K = axisLen r 0 := a
      have b' : n = 1 ∨ n = axisLen r 0 := b
      omega
  unfold npSub
  simp only [bind, Except.bind]
  rw [hs]

/-- Two plates, with one and with three trials, and two categories. -/
def exTrialsN : Arr ℚ := { shape := [2], get := fun c => if c 0 = 0 then 1 else 3 }
def exTrialsU : Arr ℚ := { shape := [2, 2], get := fun c => if c 1 = 0 then 1 / 2 else 3 / 2 }
def exTrialsG : Arr ℚ := { shape := [2, 2], get := fun c => if c 0 = 0 then 2 else 0 }

/-- With as many plates as categories the gradient is computed with the wrong numbers of trials: in the first plate, one
trial with equal probabilities, the gradient for `g = (2, 0)` is `(1/2, -1/2)`, but the second element of the result is
`-1/6`. -/
theorem C57_multinomial_trials_refuted :
    ∃ r, multinomialGradientArr exTrialsN exTrialsG exTrialsU = .ok r ∧ r.shape = [1, 2, 2] ∧
      r.at (fun k => if k = 0 then 0 else 0) = 1 / 2 ∧ r.at (fun k => if k = 0 then 1 else 0) = -1 / 6 ∧
      multinomialGradient 1 ![2, 0] (![1 / 2, 1 / 2] : Fin 2 → ℝ) 1 = -1 / 2 := by
  have h : (multinomialGradientArr exTrialsN exTrialsG exTrialsU).toOption.map
      (fun r => (r.shape, r.at (fun k => if k = 0 then 0 else 0), r.at (fun k => if k = 0 then 1 else 0)))
      = some ([1, 2, 2], 1 / 2, -1 / 6) := by decide +kernel
  cases hr : multinomialGradientArr exTrialsN exTrialsG exTrialsU with
  | error e => rw [hr] at h; cases h
  | ok r =>
    rw [hr] at h
    simp only [Except.toOption, Option.map_some, Option.some.injEq, Prod.mk.injEq] at h
    refine ⟨r, rfl, h.1, h.2.1, h.2.2, ?_⟩
    simp [multinomialGradient, Fin.sum_univ_two]
    norm_num

/-- two plates, three categories -/
example : ∃ r, multinomialGradientArr (α := ℚ) ⟨[], fun _ => 4⟩ ⟨[2, 3], fun c => c 0⟩ ⟨[3], fun _ => 4 / 3⟩ = .ok r ∧
    r.shape = [1, 2, 3] := by
  obtain ⟨r, hr, hs, _⟩ := C57_multinomial_arrays (g := (⟨[2, 3], fun c => c 0⟩ : Arr ℚ)) (u := ⟨[3], fun _ => 4 / 3⟩)
    (N := ⟨[], fun _ => 4⟩) (P := [2]) (K := 3) rfl ⟨by simp, fun k => by
      match k with
      | 0 => exact .inr rfl
      | k + 1 => exact .inl (axisLen_of_ge (by simp))⟩ rfl
  exact ⟨r, hr, hs⟩

example : multinomialGradientArr (α := ℚ) ⟨[2], fun c => c 0 + 1⟩ ⟨[2, 3], fun c => c 0⟩ ⟨[2, 3], fun _ => 1 / 3⟩
    = .error .valueError :=
  C57_multinomial_trials_raises rfl rfl rfl (by decide) (by decide) (by decide)

end Verif
