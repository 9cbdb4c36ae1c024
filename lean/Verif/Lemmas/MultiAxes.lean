import Verif.Lemmas.Linalg
import Verif.Lemmas.RowMajor
import Verif.Props.FlattenAxes

/-!
# Arrays with plates and blocks of variable axes
-/

namespace Verif
open Spec Matrix

theorem coord_joinC (p i : List Nat) : coord (p ++ i) = joinC i.length (coord i) (coord p) := by
  funext k
  rw [coord_append']
  rfl

theorem coord_joinC_mem {s i : List Nat} (hi : i ∈ indices s) (p : List Nat) :
    coord (p ++ i) = joinC s.length (coord i) (coord p) := by
  rw [coord_joinC, length_of_mem_indices hi]

theorem multi_mem {s : List Nat} (i : MultiIndex s) : i.1 ∈ indices s := List.mem_toFinset.1 i.2

theorem indices_nodup (s : List Nat) : (indices s).Nodup := by
  induction s with
  | nil => simp [indices]
  | cons d ds ih =>
    unfold indices
    rw [List.nodup_flatMap]
    refine ⟨fun a _ => ih.map (List.cons_injective (a := a)), ?_⟩
    refine List.nodup_range.imp ?_
    intro a b hab
    simp only [Function.onFun, List.disjoint_left, List.mem_map]
    rintro x ⟨y, _, rfl⟩ ⟨z, _, hz⟩
    exact hab (List.cons.inj hz).1.symm

theorem sumOver_multi {α : Type} [AddCommMonoid α] (s : List Nat) (f : (Nat → Nat) → α) :
    sumOver s f = ∑ i : MultiIndex s, f (coord i) := by
  unfold sumOver
  rw [← List.sum_toFinset _ (indices_nodup s)]
  exact (Finset.sum_coe_sort (indices s).toFinset fun i => f (coord i)).symm

/-- blocks of axes broadcast one by one -/
theorem isBroadcast_append {pss sss : List (List Nat)} {P S : List Nat} (hP : IsBroadcast pss P) (hS : IsBroadcast sss S)
    (hlen : ∀ s ∈ sss, s.length = S.length) (hl : pss.length = sss.length) (hne : pss ≠ []) :
    IsBroadcast (List.zipWith (· ++ ·) pss sss) (P ++ S) := by
  have hget : ∀ s ∈ List.zipWith (· ++ ·) pss sss, ∃ a ∈ pss, ∃ b ∈ sss, s = a ++ b := by
    intro s hs
    obtain ⟨n, hn, rfl⟩ := List.getElem_of_mem hs
    simp only [List.length_zipWith] at hn
    exact ⟨pss[n]'(by omega), List.getElem_mem _, sss[n]'(by omega), List.getElem_mem _, by simp⟩
  have hP' : ∀ a ∈ pss, ∃ b ∈ sss, a ++ b ∈ List.zipWith (· ++ ·) pss sss := by
    intro a ha
    obtain ⟨n, hn, rfl⟩ := List.getElem_of_mem ha
    refine ⟨sss[n]'(by omega), List.getElem_mem _, ?_⟩
    rw [List.mem_iff_getElem]
    exact ⟨n, by simp; omega, by simp⟩
  have hS' : ∀ b ∈ sss, ∃ a ∈ pss, a ++ b ∈ List.zipWith (· ++ ·) pss sss := by
    intro a ha
    obtain ⟨n, hn, rfl⟩ := List.getElem_of_mem ha
    refine ⟨pss[n]'(by omega), List.getElem_mem _, ?_⟩
    rw [List.mem_iff_getElem]
    exact ⟨n, by simp; omega, by simp⟩
  refine ⟨?_, ?_, ?_, ?_⟩
  · intro s hs
    obtain ⟨a, ha, b, hb, rfl⟩ := hget s hs
    rw [List.length_append, List.length_append, hlen b hb]
    have := hP.rank_ge a ha
    omega
  · right
    rcases hP.rank_le with h | ⟨a, ha, h⟩
    · obtain ⟨a, ha⟩ := List.exists_mem_of_ne_nil _ hne
      obtain ⟨b, hb, hab⟩ := hP' a ha
      refine ⟨_, hab, ?_⟩
      have := hP.rank_ge a ha
      rw [List.length_append, List.length_append, hlen b hb]
      omega
    · obtain ⟨b, hb, hab⟩ := hP' a ha
      exact ⟨_, hab, by rw [List.length_append, List.length_append, hlen b hb, h]⟩
  · intro k s hs
    obtain ⟨a, ha, b, hb, rfl⟩ := hget s hs
    rw [axisLen_append, axisLen_append, hlen b hb]
    split
    · exact hS.fits k b hb
    · exact hP.fits _ a ha
  · intro k
    rw [axisLen_append]
    split
    · rename_i hk
      rcases hS.attained k with h | ⟨b, hb, h⟩
      · exact .inl h
      · obtain ⟨a, _, hab⟩ := hS' b hb
        exact .inr ⟨_, hab, by rw [axisLen_append, hlen b hb, if_pos hk, h]⟩
    · rename_i hk
      rcases hP.attained (k - S.length) with h | ⟨a, ha, h⟩
      · exact .inl h
      · obtain ⟨b, hb, hab⟩ := hP' a ha
        exact .inr ⟨_, hab, by rw [axisLen_append, hlen b hb, if_neg hk, h]⟩

theorem isBroadcast_append₂ {pa pb P s t S : List Nat} (hP : IsBroadcast [pa, pb] P) (hS : IsBroadcast [s, t] S)
    (hs : s.length = S.length) (ht : t.length = S.length) : IsBroadcast [pa ++ s, pb ++ t] (P ++ S) :=
  isBroadcast_append hP hS (by simp [hs, ht]) rfl (by simp)

theorem isBroadcast_self (s : List Nat) : IsBroadcast [s, s] s :=
  ⟨by simp, .inr ⟨s, by simp, rfl⟩, by simp, fun _ => .inr ⟨s, by simp, rfl⟩⟩

theorem axisLen_replicate_one (n k : Nat) : axisLen (List.replicate n 1) k = 1 := by
  unfold axisLen
  rw [List.reverse_replicate, List.getElem?_replicate]
  split <;> rfl

theorem isBroadcast_ones (s : List Nat) : IsBroadcast [s, List.replicate s.length 1] s :=
  ⟨by simp, .inr ⟨s, by simp, rfl⟩, by simp [axisLen_replicate_one], fun _ => .inr ⟨s, by simp, rfl⟩⟩

theorem isBroadcast_comm {s t r : List Nat} (h : IsBroadcast [s, t] r) : IsBroadcast [t, s] r :=
  ⟨fun a ha => h.rank_ge a (by simpa [or_comm] using ha), h.rank_le.imp_right (by
    rintro ⟨a, ha, e⟩
    exact ⟨a, by simpa [or_comm] using ha, e⟩), fun k a ha => h.fits k a (by simpa [or_comm] using ha),
    fun k => (h.attained k).imp_right (by
      rintro ⟨a, ha, e⟩
      exact ⟨a, by simpa [or_comm] using ha, e⟩)⟩

theorem IsBroadcast.to {ss : List (List Nat)} {P s : List Nat} (h : IsBroadcast ss P) (hs : s ∈ ss) : BroadcastsTo s P :=
  ⟨h.rank_ge s hs, fun k => h.fits k s hs⟩


theorem npMul_ok {α : Type} [Mul α] {X Y : Arr α} {B : List Nat} (h : IsBroadcast [X.shape, Y.shape] B) :
    ∃ r, npMul X Y = .ok r ∧ r.shape = B ∧ ∀ c, r.at c = X.at c * Y.at c := by
  obtain ⟨r, h1, h2, _, h4⟩ := npMul_common (X := X) (Y := Y) (IsBroadcast.to h (by simp)) (IsBroadcast.to h (by simp))
  exact ⟨r, h1, isBroadcast_unique h2 h, h4⟩

theorem validIn_coord {P p : List Nat} (hp : p ∈ indices P) : ValidIn P (coord p) := coord_valid hp

end Verif
