import Verif.Lemmas.SumOver
import Verif.Model.Concatenate
import Verif.Props.Shape

/-!
# C14: the `Concatenate` node

Parent `i` has full shape `S₁ ++ [Lᵢ] ++ S₂` and the child has `S₁ ++ [∑ L] ++ S₂`.
-/

namespace Verif
open Spec

theorem axisLen_set (s : List Nat) (a n : Nat) (ha : a < s.length) (k : Nat) :
    axisLen (s.set (s.length - (a + 1)) n) k = if k = a then n else axisLen s k := by
  unfold axisLen
  by_cases hk : k < s.length
  · rw [List.getElem?_reverse (by simpa using hk), List.getElem?_reverse hk, List.length_set, List.getElem?_set]
    by_cases h : k = a
    · subst h
      rw [if_pos (by omega), if_pos (by omega), if_pos rfl]
      rfl
    · rw [if_neg (by omega), if_neg h]
  · rw [List.getElem?_eq_none (by simpa using hk), List.getElem?_eq_none (by simpa using hk), if_neg (by omega)]

theorem axisLen_setUnit (s : List Nat) (a k : Nat) :
    axisLen (setUnit s a) k = if k = a then 1 else axisLen s k := by
  unfold setUnit
  split
  · rename_i h
    exact axisLen_set s a 1 h k
  · rename_i h
    split
    · rename_i hk
      exact axisLen_of_ge (by omega)
    · rfl

theorem length_setUnit (s : List Nat) (a : Nat) : (setUnit s a).length = s.length := by
  unfold setUnit
  split <;> simp

theorem axisLen_mid (S₁ S₂ : List Nat) (L k : Nat) :
    axisLen (S₁ ++ [L] ++ S₂) k = if k < S₂.length then axisLen S₂ k
      else if k = S₂.length then L else axisLen S₁ (k - S₂.length - 1) := by
  rw [axisLen_append]
  split
  · rfl
  · rw [axisLen_append, List.length_singleton]
    by_cases h : k = S₂.length
    · rw [if_pos h, if_pos (by omega), h, Nat.sub_self]; simp [axisLen]
    · rw [if_neg h, if_neg (by omega)]

/-- The element with coordinates `d` on `S₂`, `t` on the axis and `e` on `S₁`. -/
abbrev midC (n : Nat) (d : Nat → Nat) (t : Nat) (e : Nat → Nat) : Nat → Nat :=
  joinC n d (joinC 1 (fun _ => t) e)

theorem midC_at (n : Nat) (d : Nat → Nat) (t : Nat) (e : Nat → Nat) : midC n d t e n = t := by
  unfold midC joinC
  rw [if_neg (by omega), if_pos (by omega)]

theorem midC_ne (n : Nat) (d : Nat → Nat) (t t' : Nat) (e : Nat → Nat) {k : Nat} (h : k ≠ n) :
    midC n d t e k = midC n d t' e k := by
  unfold midC joinC
  split
  · rfl
  · rw [if_neg (by omega), if_neg (by omega)]

theorem update_midC (n : Nat) (d : Nat → Nat) (t t' : Nat) (e : Nat → Nat) :
    Function.update (midC n d t e) n t' = midC n d t' e := by
  funext k
  by_cases h : k = n
  · subst h; rw [Function.update_self, midC_at]
  · rw [Function.update_of_ne h]; exact midC_ne n d t t' e h

/-- All arrays of a list. -/
theorem mapM_ok {α β : Type} {f : α → Except PyErr β} {g : α → β} :
    ∀ l : List α, (∀ x ∈ l, f x = .ok (g x)) → l.mapM f = .ok (l.map g) := by
  intro l
  induction l with
  | nil => intro _; rfl
  | cons x l ih =>
    intro h
    rw [List.mapM_cons, h x (by simp), ih (fun y hy => h y (by simp [hy]))]
    rfl

theorem concatGet_get {α : Type} [Zero α] (a : Nat) (d e : Nat → Nat) :
    ∀ (Xs : List (Arr α)) (Ls : List Nat), Xs.map (fun X => axisLen X.shape a) = Ls →
      ∀ i X L, Xs[i]? = some X → Ls[i]? = some L → ∀ t, t < L →
        concatGet a Xs (midC a d ((Ls.take i).sum + t) e) = X.get (midC a d t e) := by
  intro Xs
  induction Xs with
  | nil => intro Ls _ i X L h; simp at h
  | cons Y Xs ih =>
    intro Ls hL i X L hX hLi t ht
    subst hL
    unfold concatGet
    cases i with
    | zero =>
      simp only [List.getElem?_cons_zero, Option.some.injEq, List.map_cons] at hX hLi
      subst hX
      subst hLi
      rw [midC_at]
      simp only [List.take_zero, List.sum_nil, Nat.zero_add]
      rw [if_pos ht]
    | succ i =>
      simp only [List.getElem?_cons_succ, List.map_cons] at hX hLi
      rw [midC_at, List.map_cons, List.take_succ_cons, List.sum_cons, if_neg (by omega), update_midC]
      rw [show axisLen Y.shape a + (List.take i (List.map (fun X => axisLen X.shape a) Xs)).sum + t -
        axisLen Y.shape a = (List.take i (List.map (fun X => axisLen X.shape a) Xs)).sum + t by omega]
      exact ih _ rfl i X L hX hLi t ht

section
variable {α : Type} [CommSemiring α] (S₁ S₂ Ls : List Nat)

/-- **C14** The moments are the concatenated moments: position `L₀ + … + Lᵢ₋₁ + t` of the axis is position
`t` of parent `i`. -/
theorem C14_moments (us : List (Arr α)) (hlen : us.length = Ls.length) (hne : us ≠ [])
    (hu : ∀ (i : Nat) u L, us[i]? = some u → Ls[i]? = some L → BroadcastsTo u.shape (S₁ ++ [L] ++ S₂)) :
    ∃ v, concatMoments us Ls S₂.length = .ok v ∧ BroadcastsTo v.shape (S₁ ++ [Ls.sum] ++ S₂) ∧
      ∀ (i : Nat) u L, us[i]? = some u → Ls[i]? = some L → ∀ d t e, t < L →
        v.at (midC S₂.length d ((Ls.take i).sum + t) e) = u.at (midC S₂.length d t e) := by
  set a := S₂.length with ha
  -- the common shape
  have hunit : ∀ s ∈ us.map (fun u => setUnit u.shape a), BroadcastsTo s (S₁ ++ [1] ++ S₂) := by
    intro s hs
    obtain ⟨u, hu', rfl⟩ := List.mem_map.1 hs
    obtain ⟨i, hi, rfl⟩ := List.getElem_of_mem hu'
    have h := hu i us[i] Ls[i] (List.getElem?_eq_getElem hi) (List.getElem?_eq_getElem (by omega))
    refine ⟨?_, fun k => ?_⟩
    · rw [length_setUnit]
      have := h.1
      simpa using this
    · rw [axisLen_setUnit, axisLen_mid]
      have := h.2 k
      rw [axisLen_mid] at this
      by_cases hk : k = a
      · rw [if_pos hk]; exact .inl rfl
      · rw [if_neg hk]
        rw [if_neg (c := k = S₂.length) hk] at this ⊢
        exact this
  have hcompat : ∃ B, IsBroadcast (us.map fun u => setUnit u.shape a) B := by
    rw [exists_isBroadcast_iff]
    intro k s hs t ht
    have h1 := (hunit s hs).2 k
    have h2 := (hunit t ht).2 k
    omega
  obtain ⟨B, hB⟩ := hcompat
  have hBb : BroadcastsTo B (S₁ ++ [1] ++ S₂) := by
    constructor
    · rcases hB.rank_le with h | ⟨s, hs, hle⟩
      · omega
      · rw [← hle]; exact (hunit s hs).1
    · intro k
      rcases hB.attained k with h | ⟨s, hs, h⟩
      · exact .inl h
      · rw [← h]; exact (hunit s hs).2 k
  have hBa : axisLen B a = 1 := by
    rcases hB.attained a with h | ⟨s, hs, h⟩
    · exact h
    · obtain ⟨u, _, rfl⟩ := List.mem_map.1 hs
      rw [axisLen_setUnit, if_pos rfl] at h
      exact h.symm
  -- the shape with the axis at length `l`
  let shp : Nat → List Nat := fun l => (List.replicate (a + 1 - B.length) 1 ++ B).set
    (max B.length (a + 1) - (a + 1)) l
  have hshpl : ∀ l, (shp l).length = max B.length (a + 1) := by
    intro l
    simp [shp]
    omega
  have hpad : ∀ k, axisLen (List.replicate (a + 1 - B.length) 1 ++ B) k = axisLen B k := by
    intro k
    rw [axisLen_append]
    split
    · rfl
    · rw [axisLen_of_ge (s := B) (by omega)]
      unfold axisLen
      rw [List.reverse_replicate, List.getElem?_replicate]
      split <;> rfl
  have hshpax : ∀ l k, axisLen (shp l) k = if k = a then l else axisLen B k := by
    intro l k
    have hl : (List.replicate (a + 1 - B.length) 1 ++ B).length = max B.length (a + 1) := by
      simp; omega
    have := axisLen_set (List.replicate (a + 1 - B.length) 1 ++ B) a l (by omega) k
    rw [hl, hpad] at this
    exact this
  have haxl : ∀ l k, axisLen (l :: List.replicate a 1) k = if k = a then l else 1 := by
    intro l k
    rw [axisLen_cons, List.length_replicate]
    split
    · rfl
    · unfold axisLen
      rw [List.reverse_replicate, List.getElem?_replicate]
      split <;> rfl
  have hbc : ∀ l, broadcastedShape [B, l :: List.replicate a 1] = .ok (shp l) := by
    intro l
    rw [broadcastedShape_ok]
    refine ⟨?_, ?_, ?_, ?_⟩
    · intro s hs
      rw [hshpl]
      simp only [List.mem_cons, List.not_mem_nil, or_false] at hs
      rcases hs with rfl | rfl
      · omega
      · simp
    · rw [hshpl]
      right
      by_cases h : a + 1 ≤ B.length
      · exact ⟨B, by simp, by omega⟩
      · exact ⟨l :: List.replicate a 1, by simp, by simp only [List.length_cons, List.length_replicate]; omega⟩
    · intro k s hs
      rw [hshpax]
      simp only [List.mem_cons, List.not_mem_nil, or_false] at hs
      rcases hs with rfl | rfl
      · split
        · rename_i h; rw [h]; exact .inl hBa
        · exact .inr rfl
      · rw [haxl]
        split
        · exact .inr rfl
        · exact .inl rfl
    · intro k
      rw [hshpax]
      by_cases hk : k = a
      · rw [if_pos hk]
        exact .inr ⟨l :: List.replicate a 1, by simp, by rw [haxl, if_pos hk]⟩
      · rw [if_neg hk]
        exact .inr ⟨B, by simp, rfl⟩
  -- the broadcast parents
  let big : Arr α × List Nat → Arr α := fun p =>
    { shape := p.2, get := fun c => p.1.at c * (Arr.mk p.2 fun _ => 1).at c }
  have hfit : ∀ (i : Nat) u L, us[i]? = some u → Ls[i]? = some L →
      u.shape.length ≤ (shp L).length ∧ ∀ k, axisLen u.shape k = 1 ∨ axisLen u.shape k = axisLen (shp L) k := by
    intro i u L hiu hiL
    have hmem : setUnit u.shape a ∈ us.map (fun u => setUnit u.shape a) :=
      List.mem_map.2 ⟨u, List.mem_of_getElem? hiu, rfl⟩
    constructor
    · rw [hshpl]
      have := hB.rank_ge _ hmem
      rw [length_setUnit] at this
      omega
    · intro k
      rw [hshpax]
      by_cases hk : k = a
      · rw [if_pos hk]
        have := (hu i u L hiu hiL).2 k
        rw [axisLen_mid, if_neg (by omega), if_pos (by omega)] at this
        exact this
      · rw [if_neg hk]
        have := hB.fits k _ hmem
        rw [axisLen_setUnit, if_neg hk] at this
        exact this
  have hbig : ∀ p ∈ us.zip (Ls.map shp), npMul p.1 ({ shape := p.2, get := fun _ => 1 } : Arr α) = .ok (big p) := by
    intro p hp
    obtain ⟨i, hi, hpi⟩ := List.getElem_of_mem hp
    rw [List.getElem_zip] at hpi
    have hi' : i < us.length := by
      rw [List.length_zip] at hi; omega
    subst hpi
    have hf := hfit i us[i] Ls[i] (List.getElem?_eq_getElem hi') (List.getElem?_eq_getElem (by omega))
    unfold npMul
    have : broadcastedShape [us[i].shape, (Ls.map shp)[i]'(by simp; omega)] =
        .ok ((Ls.map shp)[i]'(by simp; omega)) := by
      rw [broadcastedShape_ok, List.getElem_map]
      have h := isBroadcast_pair_of_broadcastsTo hf
      exact ⟨fun s hs => h.rank_ge s (by simp at hs ⊢; tauto),
        h.rank_le.imp_right fun ⟨s, hs, e⟩ => ⟨s, by simp at hs ⊢; tauto, e⟩,
        fun k s hs => h.fits k s (by simp at hs ⊢; tauto),
        fun k => (h.attained k).imp_right fun ⟨s, hs, e⟩ => ⟨s, by simp at hs ⊢; tauto, e⟩⟩
    rw [this]
    rfl
  set Xs := (us.zip (Ls.map shp)).map big with hXs
  have hXsl : Xs.length = us.length := by
    rw [hXs]; simp; omega
  have hXi : ∀ (i : Nat) u L, us[i]? = some u → Ls[i]? = some L → Xs[i]? = some (big (u, shp L)) := by
    intro i u L h1 h2
    rw [hXs, List.getElem?_map, List.getElem?_zip_eq_some.2 (⟨h1, by rw [List.getElem?_map, h2]; rfl⟩ :
      us[i]? = some (u, shp L).1 ∧ (Ls.map shp)[i]? = some (u, shp L).2)]
    rfl
  have hXL : Xs.map (fun X => axisLen X.shape a) = Ls := by
    apply List.ext_getElem?
    intro i
    rw [List.getElem?_map]
    rcases hl : Ls[i]? with _ | L
    · rw [List.getElem?_eq_none]
      · rfl
      · rw [List.getElem?_eq_none_iff] at hl; omega
    · have hi : i < us.length := by
        have := (List.getElem?_eq_some_iff.1 hl).1
        omega
      rw [hXi i us[i] L (List.getElem?_eq_getElem hi) hl]
      show some (axisLen (shp L) a) = some L
      rw [hshpax, if_pos rfl]
  have hXshape : ∀ X ∈ Xs, ∃ L, X.shape = shp L := by
    intro X hX
    rw [hXs] at hX
    obtain ⟨p, hp, rfl⟩ := List.mem_map.1 hX
    obtain ⟨L, _, hL⟩ := List.mem_map.1 (List.of_mem_zip hp).2
    exact ⟨L, hL.symm⟩
  have hset : ∀ l l' n, (shp l).set (max B.length (a + 1) - (a + 1)) n =
      (shp l').set (max B.length (a + 1) - (a + 1)) n := by
    intro l l' n
    simp [shp]
  have hcat : ∃ L0, npConcatenate Xs a =
      .ok (Arr.mk ((shp L0).set (max B.length (a + 1) - (a + 1)) Ls.sum) (concatGet a Xs)) := by
    rcases hX : Xs with _ | ⟨X, Ys⟩
    · rw [hX] at hXsl
      simp at hXsl
      exact absurd hXsl.symm (by simpa using hne)
    · have h1 : X ∈ Xs := by rw [hX]; simp
      obtain ⟨L0, h0⟩ := hXshape X h1
      refine ⟨L0, ?_⟩
      unfold npConcatenate
      simp only
      rw [if_pos]
      · rw [← hX, hXL, h0, hshpl]
      · refine ⟨by rw [h0, hshpl]; omega, fun Y hY => ?_⟩
        rw [← hX] at hY
        obtain ⟨L1, h1⟩ := hXshape Y hY
        unfold setUnit
        rw [h0, h1, hshpl, hshpl, if_pos (by omega), if_pos (by omega)]
        exact hset _ _ _
  obtain ⟨L0, hcat⟩ := hcat
  have hval : concatMoments us Ls a =
      .ok (Arr.mk ((shp L0).set (max B.length (a + 1) - (a + 1)) Ls.sum) (concatGet a Xs)) := by
    unfold concatMoments
    simp only []
    rw [(broadcastedShape_ok _ _).2 hB]
    show (Ls.mapM (fun l => broadcastedShape [B, l :: List.replicate a 1]) >>= fun bcShapes => _) = _
    rw [mapM_ok (g := shp) Ls (fun l _ => hbc l)]
    show ((us.zip (Ls.map shp)).mapM _ >>= fun ui => npConcatenate ui a) = _
    rw [mapM_ok (g := big) _ hbig]
    exact hcat
  have hvax : ∀ k, axisLen ((shp L0).set (max B.length (a + 1) - (a + 1)) Ls.sum) k =
      if k = a then Ls.sum else axisLen B k := by
    intro k
    have := axisLen_set (shp L0) a Ls.sum (by rw [hshpl]; omega) k
    rw [hshpl, hshpax] at this
    rw [this]
    split <;> simp_all
  refine ⟨_, hval, ⟨?_, fun k => ?_⟩, ?_⟩
  · have := hBb.1
    simp only [List.length_set, hshpl, List.length_append, List.length_singleton] at this ⊢
    omega
  · simp only [hvax, axisLen_mid]
    have := hBb.2 k
    rw [axisLen_mid] at this
    by_cases hk : k = a
    · rw [if_pos hk, if_neg (by omega), if_pos hk]; exact .inr rfl
    · rw [if_neg hk, if_neg (c := k = S₂.length) hk]
      rw [if_neg (c := k = S₂.length) hk] at this
      exact this
  · intro i u L hiu hiL d t e ht
    have hle : (Ls.take i).sum + L ≤ Ls.sum := by
      have h1 : Ls = Ls.take i ++ L :: Ls.drop (i + 1) := by
        have := List.take_append_drop i Ls
        rw [List.drop_eq_getElem_cons (List.getElem?_eq_some_iff.1 hiL).1,
          (List.getElem?_eq_some_iff.1 hiL).2] at this
        exact this.symm
      conv_rhs => rw [h1]
      rw [List.sum_append, List.sum_cons]
      omega
    show concatGet a Xs (restrict _ _) = _
    -- the coordinate after the broadcast read
    set c := midC a d ((Ls.take i).sum + t) e with hc
    have hrc : ∃ d' e', restrict ((shp L0).set (max B.length (a + 1) - (a + 1)) Ls.sum) c =
        midC a d' ((Ls.take i).sum + t) e' ∧ ∀ k, axisLen B k ≠ 1 →
          midC a d' t e' k = midC a d t e k := by
      refine ⟨fun k => if axisLen B k = 1 then 0 else d k,
        fun k => if axisLen B (k + 1 + a) = 1 then 0 else e k, ?_, ?_⟩
      · funext k
        unfold restrict
        rw [hvax]
        by_cases hk : k = a
        · subst hk
          rw [if_pos rfl, midC_at, hc, midC_at]
          split <;> omega
        · rw [if_neg hk, hc]
          unfold midC joinC
          by_cases h1 : k < a
          · simp only [if_pos h1]
          · simp only [if_neg h1, if_neg (show ¬ k - a < 1 by omega),
              show k - a - 1 + 1 + a = k by omega]
      · intro k hk
        unfold midC joinC
        by_cases h1 : k < a
        · simp only [if_pos h1, if_neg hk]
        · by_cases h2 : k - a < 1
          · simp only [if_neg h1, if_pos h2]
          · simp only [if_neg h1, if_neg h2, show k - a - 1 + 1 + a = k by omega, if_neg hk]
    obtain ⟨d', e', hrc, hrd⟩ := hrc
    rw [hrc, concatGet_get a d' e' Xs Ls hXL i _ L (hXi i u L hiu hiL) hiL t ht]
    show u.at _ * 1 = _
    rw [mul_one]
    apply u.at_congr
    intro k hk
    by_cases hka : k = a
    · subst hka; rw [midC_at, midC_at]
    · apply hrd
      have h2 := (hfit i u L hiu hiL).2 k
      rw [hshpax, if_neg hka] at h2
      omega

end

theorem concatIndices_drop (Ls : List Nat) (i : Nat) (hi : i < Ls.length) (n : Nat) :
    ((concatIndices Ls).drop i).take (n + 1) =
      (Ls.take i).sum :: ((concatIndices Ls).drop (i + 1)).take n := by
  have : i < (concatIndices Ls).length := by
    unfold concatIndices
    simp
    omega
  rw [List.drop_eq_getElem_cons this, List.take_succ_cons]
  congr 1
  simp [concatIndices]

/-- A segment of the axis of a non-broadcast array. -/
theorem segment_ok {β : Type} (S₁ S₂ : List Nat) (N : Nat) (m : Arr β)
    (hm : BroadcastsTo m.shape (S₁ ++ [N] ++ S₂)) (ha : S₂.length < m.shape.length)
    (hN : axisLen m.shape S₂.length = N) (i L : Nat) (hL : i + L ≤ N) :
    BroadcastsTo (segment m S₂.length i (i + L)).shape (S₁ ++ [L] ++ S₂) ∧
      (N ≠ 1 → ∀ d t e, t < L →
        (segment m S₂.length i (i + L)).at (midC S₂.length d t e) = m.at (midC S₂.length d (i + t) e)) := by
  set a := S₂.length
  have hsh : (segment m a i (i + L)).shape = m.shape.set (m.shape.length - (a + 1)) L := by
    unfold segment
    simp only [hN]
    congr 1
    omega
  have hax : ∀ k, axisLen (segment m a i (i + L)).shape k = if k = a then L else axisLen m.shape k := by
    intro k
    rw [hsh, axisLen_set _ _ _ ha]
  refine ⟨⟨?_, fun k => ?_⟩, fun hN1 d t e ht => ?_⟩
  · rw [hsh, List.length_set]
    simpa using hm.1
  · rw [hax, axisLen_mid]
    have := hm.2 k
    rw [axisLen_mid] at this
    by_cases hk : k = a
    · rw [if_pos hk, if_neg (c := k < S₂.length) (by omega), if_pos hk]; exact .inr rfl
    · rw [if_neg hk, if_neg (c := k = S₂.length) hk]
      rw [if_neg (c := k = S₂.length) hk] at this
      exact this
  · show m.get (Function.update _ a _) = m.get (restrict m.shape _)
    congr 1
    funext k
    by_cases hk : k = a
    · subst hk
      rw [Function.update_self]
      unfold restrict
      rw [hax, if_pos rfl, hN, midC_at, midC_at, if_neg hN1]
      split <;> omega
    · rw [Function.update_of_ne hk]
      unfold restrict
      rw [hax, if_neg hk, midC_ne a d t (i + t) e hk]

theorem sum_take_succ {Ls : List Nat} {i L : Nat} (h : Ls[i]? = some L) :
    (Ls.take (i + 1)).sum = (Ls.take i).sum + L := by
  rw [List.take_add_one, h]
  simp

theorem sum_take_le_sum {Ls : List Nat} {i L : Nat} (h : Ls[i]? = some L) : (Ls.take i).sum + L ≤ Ls.sum := by
  rw [← sum_take_succ h]
  conv_rhs => rw [← List.take_append_drop (i + 1) Ls, List.sum_append]
  omega

/-- An array with a unit (or missing) axis does not see the position along it. -/
theorem at_midC_of_unit {β : Type} (m : Arr β) (n : Nat) (h : axisLen m.shape n = 1) (d e : Nat → Nat) (t t' : Nat) :
    m.at (midC n d t e) = m.at (midC n d t' e) := by
  apply m.at_congr
  intro k hk
  exact midC_ne n d t t' e (fun hkn => hk (hkn ▸ h))

/-- **C14** Parent `i` receives the segment `[L₀ + … + Lᵢ₋₁, L₀ + … + Lᵢ)` of the message. -/
theorem C14_message {β : Type} (S₁ S₂ Ls : List Nat) (m : Arr β)
    (hm : BroadcastsTo m.shape (S₁ ++ [Ls.sum] ++ S₂)) (i L : Nat) (hi : Ls[i]? = some L) :
    ∃ y, concatMessage m Ls S₂.length i = .ok y ∧ BroadcastsTo y.shape (S₁ ++ [L] ++ S₂) ∧
      ∀ d t e, t < L →
        y.at (midC S₂.length d t e) = m.at (midC S₂.length d ((Ls.take i).sum + t) e) := by
  have hil := (List.getElem?_eq_some_iff.1 hi).1
  have hle := sum_take_le_sum hi
  have hax : axisLen m.shape S₂.length = 1 ∨ axisLen m.shape S₂.length = Ls.sum := by
    have := hm.2 S₂.length
    rwa [axisLen_mid, if_neg (by omega), if_pos rfl] at this
  have hind : ((concatIndices Ls).drop i).take 2 = [(Ls.take i).sum, (Ls.take i).sum + L] := by
    rw [concatIndices_drop Ls i hil 1]
    congr 1
    rw [← sum_take_succ hi]
    unfold concatIndices
    rw [List.drop_eq_getElem_cons (by simp; omega), List.take_succ_cons]
    simp
  unfold concatMessage
  simp only []
  rw [hind]
  by_cases h : S₂.length < m.shape.length ∧ axisLen m.shape S₂.length > 1
  · rw [if_pos h]
    have hN : axisLen m.shape S₂.length = Ls.sum := by omega
    obtain ⟨h1, h2⟩ := segment_ok S₁ S₂ Ls.sum m hm h.1 hN _ L hle
    exact ⟨_, rfl, h1, h2 (by omega)⟩
  · rw [if_neg h]
    have h1 : axisLen m.shape S₂.length = 1 ∨ Ls.sum = 0 := by
      by_cases hl : S₂.length < m.shape.length
      · have : ¬ axisLen m.shape S₂.length > 1 := fun hh => h ⟨hl, hh⟩
        omega
      · exact .inl (axisLen_of_ge (by omega))
    refine ⟨m, rfl, ⟨by simpa using hm.1, fun k => ?_⟩, fun d t e ht => ?_⟩
    · have := hm.2 k
      rw [axisLen_mid] at this ⊢
      by_cases hk : k = S₂.length
      · subst hk
        rw [if_neg (by omega), if_pos rfl]
        omega
      · rw [if_neg (c := k = S₂.length) hk] at this ⊢
        exact this
    · rcases h1 with h1 | h1
      · exact at_midC_of_unit m _ h1 d e _ _
      · omega

/-- **C14** The segments of the parents partition the axis. -/
theorem C14_partition (Ls : List Nat) (p : Nat) (hp : p < Ls.sum) :
    ∃! it : Nat × Nat, it.1 < Ls.length ∧ it.2 < Ls.getD it.1 0 ∧ p = (Ls.take it.1).sum + it.2 := by
  induction Ls generalizing p with
  | nil => simp at hp
  | cons L Ls ih =>
    rw [List.sum_cons] at hp
    by_cases h : p < L
    · refine ⟨(0, p), ⟨by simp, by simpa using h, by simp⟩, ?_⟩
      rintro ⟨i, t⟩ ⟨h1, h2, h3⟩
      cases i with
      | zero => simp at h3; subst h3; rfl
      | succ i =>
        simp only [List.take_succ_cons, List.sum_cons] at h3
        omega
    · obtain ⟨⟨i, t⟩, ⟨h1, h2, h3⟩, hun⟩ := ih (p - L) (by omega)
      refine ⟨(i + 1, t), ⟨by simpa using h1, by simpa using h2, ?_⟩, ?_⟩
      · simp only [List.take_succ_cons, List.sum_cons] at h3 ⊢
        omega
      · rintro ⟨i', t'⟩ ⟨h1', h2', h3'⟩
        cases i' with
        | zero =>
          simp at h2' h3'
          omega
        | succ i' =>
          simp only [List.take_succ_cons, List.sum_cons] at h3'
          have := hun (i', t') ⟨by simpa using h1', by simpa using h2', by simp only; omega⟩
          simp only [Prod.mk.injEq] at this ⊢
          omega

/-- **C14** The mask sent to the *last* parent, or any mask that does not distinguish the positions of the
axis, is right.  Missing: the mask to the other parents, see `C14_mask_raises`. -/
theorem C14_mask_partial (S₁ S₂ Ls : List Nat) (w : Arr Bool)
    (hw : BroadcastsTo w.shape (S₁ ++ [Ls.sum] ++ S₂)) (i L : Nat) (hi : Ls[i]? = some L)
    (hlast : i + 1 = Ls.length ∨ axisLen w.shape S₂.length = 1) :
    ∃ y, concatWeights w Ls S₂.length i = .ok y ∧ BroadcastsTo y.shape (S₁ ++ [L] ++ S₂) ∧
      ∀ d t e, t < L →
        y.at (midC S₂.length d t e) = w.at (midC S₂.length d ((Ls.take i).sum + t) e) := by
  obtain ⟨y, hy, h1, h2⟩ := C14_message S₁ S₂ Ls w hw i L hi
  refine ⟨y, ?_, h1, h2⟩
  rw [← hy]
  unfold concatWeights concatMessage
  simp only []
  by_cases h : S₂.length < w.shape.length ∧ axisLen w.shape S₂.length > 1
  · rw [if_pos h, if_pos h]
    have hl : i + 1 = Ls.length := by omega
    have hil := (List.getElem?_eq_some_iff.1 hi).1
    rw [concatIndices_drop Ls i hil 0, concatIndices_drop Ls i hil 1]
    have hN : axisLen w.shape S₂.length = Ls.sum := by
      have := hw.2 S₂.length
      rw [axisLen_mid, if_neg (by omega), if_pos rfl] at this
      omega
    have : ((concatIndices Ls).drop (i + 1)).take 1 = [Ls.sum] := by
      unfold concatIndices
      rw [List.drop_eq_getElem_cons (by simp; omega), List.take_succ_cons]
      simp [hl]
    rw [this, List.take_zero]
    show Except.ok (segment w _ _ (axisLen w.shape _)) = Except.ok (segment w _ _ Ls.sum)
    rw [hN]
  · rw [if_neg h, if_neg h]

/-- **C14** (violation) Whenever the mask distinguishes the positions of the axis and something follows the
parent on the axis, `_mask_to_parent` raises `ValueError` instead of sending the mask: the mask handed on
has all positions from the parent's start to the end of the whole axis. -/
theorem C14_mask_raises (P₁ P₂ Ls : List Nat) (w : Arr Bool)
    (hw : BroadcastsTo w.shape (P₁ ++ [Ls.sum] ++ P₂)) (hfull : axisLen w.shape P₂.length ≠ 1)
    (i L : Nat) (hi : Ls[i]? = some L) (hnext : (Ls.take i).sum + L < Ls.sum)
    (hpos : 0 < L) (platesParent : List Nat) :
    (do let y ← concatWeights w Ls P₂.length i
        maskToParent (P₁ ++ [L] ++ P₂) platesParent y) = .error .valueError := by
  have hlen : P₂.length < w.shape.length := by
    by_contra h
    exact hfull (axisLen_of_ge (by omega))
  have hN : axisLen w.shape P₂.length = Ls.sum := by
    have := hw.2 P₂.length
    rw [axisLen_mid, if_neg (by omega), if_pos rfl] at this
    omega
  have hil := (List.getElem?_eq_some_iff.1 hi).1
  have hc : concatWeights w Ls P₂.length i = .ok (segment w P₂.length (Ls.take i).sum Ls.sum) := by
    unfold concatWeights
    simp only []
    rw [if_pos ⟨hlen, by omega⟩, concatIndices_drop Ls i hil 0, List.take_zero]
    show Except.ok (segment w _ _ (axisLen w.shape _)) = _
    rw [hN]
  rw [hc]
  show maskToParent _ _ _ = _
  unfold maskToParent
  have hax : axisLen (segment w P₂.length (Ls.take i).sum Ls.sum).shape P₂.length =
      Ls.sum - (Ls.take i).sum := by
    unfold segment
    simp only []
    rw [axisLen_set _ _ _ hlen, if_pos rfl, hN]
    omega
  have hle := sum_take_le_sum hi
  have hnot : ¬ BroadcastsTo (segment w P₂.length (Ls.take i).sum Ls.sum).shape (P₁ ++ [L] ++ P₂) := by
    intro h
    have := h.2 P₂.length
    rw [hax, axisLen_mid, if_neg (by omega), if_pos rfl] at this
    omega
  classical
  rw [isShapeSubset_ok_decide, decide_eq_false hnot]
  rfl

/-- Two parents of lengths 2 and 3, and a mask of length 5: no mask can be sent to the first parent. -/
example : (do let y ← concatWeights (⟨[5], fun c => c 0 != 1⟩ : Arr Bool) [2, 3] 0 0
              maskToParent [2] [2] y) = .error .valueError :=
  C14_mask_raises [] [] [2, 3] ⟨[5], fun c => c 0 != 1⟩ (BroadcastsTo.refl _) (by decide) 0 2 rfl (by decide)
    (by decide) [2]

/-- The plates of the child and back. -/
theorem C14_plates (P₁ P₂ Ls : List Nat) (L : Nat) :
    concatPlatesFromParent Ls P₂.length (P₁ ++ [L] ++ P₂) = P₁ ++ [Ls.sum] ++ P₂ ∧
    concatPlatesToParent (P₁ ++ [L] ++ P₂) P₂.length (P₁ ++ [Ls.sum] ++ P₂) = P₁ ++ [L] ++ P₂ := by
  have h : ∀ x n, (P₁ ++ [x] ++ P₂).set ((P₁ ++ [x] ++ P₂).length - (P₂.length + 1)) n = P₁ ++ [n] ++ P₂ := by
    intro x n
    have e : (P₁ ++ [x] ++ P₂).length - (P₂.length + 1) = P₁.length := by simp
    rw [e, List.append_assoc, List.set_append_right _ _ (by omega)]
    simp
  constructor
  · exact h _ _
  · unfold concatPlatesToParent
    rw [h, axisLen_mid, if_neg (by omega), if_pos rfl]

/-- Three parents with plates `(2, 1)`, `(2, 3)` and `(1, 2)` along the last axis. -/
example : (match concatMoments [(⟨[2, 1], fun c => c 1⟩ : Arr Nat), ⟨[1, 3], fun c => 10 + c 0⟩,
      ⟨[2], fun c => 20 + c 0⟩] [1, 3, 2] 0 with
    | .ok v => (v.shape, (indices [2, 6]).map fun i => v.get (coord i))
    | .error _ => ([], [])) = ([2, 6], [0, 10, 11, 12, 20, 21, 1, 10, 11, 12, 20, 21]) := by
  decide +kernel

end Verif
