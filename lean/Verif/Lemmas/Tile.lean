import Verif.Lemmas.SumOver
import Verif.Lemmas.Reshape
import Verif.Lemmas.Message
import Verif.Model.Tile

/-! # Helper lemmas: `tile` -/

namespace Verif
open Spec Function

theorem axisLen_replicate_one (n k : Nat) : axisLen (List.replicate n 1) k = 1 := by
  unfold axisLen
  rw [List.reverse_replicate, List.getElem?_replicate]
  split <;> rfl

theorem axisLen_padOnes (n : Nat) (s : List Nat) (k : Nat) : axisLen (padOnes n s) k = axisLen s k := by
  unfold padOnes
  rw [axisLen_append]
  split
  · rfl
  · rw [axisLen_replicate_one, axisLen_of_ge (s := s) (by omega)]

theorem length_padOnes {n : Nat} {s : List Nat} (h : s.length ≤ n) : (padOnes n s).length = n := by
  unfold padOnes
  simp
  omega

theorem axisLen_zipWith (f : Nat → Nat → Nat) (hf : f 1 1 = 1) (s t : List Nat) (h : s.length = t.length) (k : Nat) :
    axisLen (List.zipWith f s t) k = f (axisLen s k) (axisLen t k) := by
  unfold axisLen
  rw [List.reverse_zipWith h, List.getElem?_zipWith]
  rcases h1 : s.reverse[k]? with _ | x
  · have : t.reverse[k]? = none := by
      rw [List.getElem?_eq_none_iff] at h1 ⊢
      simp at h1 ⊢
      omega
    rw [this]
    simp [hf]
  · have : ∃ y, t.reverse[k]? = some y := by
      have := (List.getElem?_eq_some_iff.1 h1).1
      exact ⟨_, List.getElem?_eq_getElem (by simpa [h] using this)⟩
    obtain ⟨y, hy⟩ := this
    rw [hy]
    rfl

theorem axisLen_multiplyShapes (s t : List Nat) (k : Nat) :
    axisLen (multiplyShapes s t) k = axisLen s k * axisLen t k := by
  unfold multiplyShapes
  simp only []
  rw [axisLen_zipWith _ rfl _ _ (by rw [length_padOnes (by omega), length_padOnes (by omega)]),
    axisLen_padOnes, axisLen_padOnes]

theorem length_multiplyShapes (s t : List Nat) : (multiplyShapes s t).length = max s.length t.length := by
  unfold multiplyShapes
  simp only [List.length_zipWith]
  rw [length_padOnes (by omega), length_padOnes (by omega)]
  omega

/-! ## The interleaved shape -/

theorem inter_getElem (l : List (Nat × Nat)) (k : Nat) :
    (l.flatMap fun p => [p.2, p.1])[2 * k]? = l[k]?.map Prod.snd ∧
    (l.flatMap fun p => [p.2, p.1])[2 * k + 1]? = l[k]?.map Prod.fst := by
  induction l generalizing k with
  | nil => simp
  | cons p l ih =>
    rw [List.flatMap_cons]
    cases k with
    | zero => simp
    | succ k =>
      have := ih k
      simp only [show 2 * (k + 1) = 2 * k + 1 + 1 by omega,
        List.cons_append, List.nil_append, List.getElem?_cons_succ]
      exact this

theorem flatR_inter (l : List (Nat × Nat)) (c : Nat → Nat) :
    flatR (l.flatMap fun p => [p.2, p.1]) c =
      flatR (l.map fun p => p.1 * p.2) (fun k => c (2 * k) + (l.getD k (1, 1)).2 * c (2 * k + 1)) := by
  induction l generalizing c with
  | nil => rfl
  | cons p l ih =>
    rw [List.flatMap_cons, List.map_cons]
    show c 0 + p.2 * (c 1 + p.1 * flatR (l.flatMap fun p => [p.2, p.1]) (fun k => c (k + 1 + 1))) =
      c (2 * 0) + p.2 * c (2 * 0 + 1) + p.1 * p.2 * flatR (l.map fun p => p.1 * p.2) _
    rw [ih]
    simp only [Nat.mul_zero, Nat.zero_add, Nat.mul_add, List.getD_cons_succ]
    have : (fun k => c (2 * k + 1 + 1) + (l.getD k (1, 1)).2 * c (2 * k + 1 + 1 + 1)) =
        (fun k => c (2 * k + 2 * 1) + (l.getD k (1, 1)).2 * c (2 * k + 2 * 1 + 1)) := by
      funext k; rfl
    rw [this]
    ring

theorem flatR_append_ones (l : List Nat) (n : Nat) (c : Nat → Nat) (h : ∀ k, l.length ≤ k → c k = 0) :
    flatR (l ++ List.replicate n 1) c = flatR l c := by
  induction l generalizing c with
  | nil =>
    rw [List.nil_append]
    induction n generalizing c with
    | zero => rfl
    | succ n ih =>
      rw [List.replicate_succ]
      show c 0 + 1 * flatR _ _ = 0
      rw [ih _ (fun k _ => h (k + 1) (by simp)), h 0 (by simp)]
      rfl
  | cons d l ih =>
    show c 0 + d * flatR (l ++ _) _ = c 0 + d * flatR l _
    rw [ih _ (fun k hk => h (k + 1) (by simp; omega))]

/-! ## Summing the copies -/

theorem filter_odd_range (n : Nat) :
    (List.range (2 * n)).filter (fun i => ¬ i % 2 = 0) = (List.range n).map fun i => 2 * i + 1 := by
  induction n with
  | zero => rfl
  | succ n ih =>
    rw [show 2 * (n + 1) = 2 * n + 1 + 1 by omega, List.range_succ, List.range_succ, List.filter_append,
      List.filter_append, ih, List.range_succ, List.map_append]
    have h1 : 2 * n % 2 = 0 := by omega
    have h2 : ¬ (2 * n + 1) % 2 = 0 := by omega
    simp [h1, h2]

theorem filter_even_range (n : Nat) :
    (List.range (2 * n)).filter (fun i => i % 2 = 0) = (List.range n).map fun i => 2 * i := by
  induction n with
  | zero => rfl
  | succ n ih =>
    rw [show 2 * (n + 1) = 2 * n + 1 + 1 by omega, List.range_succ, List.range_succ, List.filter_append,
      List.filter_append, ih, List.range_succ, List.map_append]
    have h1 : 2 * n % 2 = 0 := by omega
    have h2 : ¬ (2 * n + 1) % 2 = 0 := by omega
    simp [h1, h2]

theorem sumOver_eq_sumAxes_rev {α : Type _} [AddCommMonoid α] (s : List Nat) (f : (Nat → Nat) → α) :
    sumOver s f = sumAxes ((List.range s.length).map fun k => (k, axisLen s k)) f (fun _ => 0) := by
  have h := sumOver_ite s (fun _ => true) f (fun _ => 0) (by intros; contradiction)
  simp only [true_or, implies_true, if_true, ite_self] at h
  rw [h]
  unfold selAxes
  rw [List.filter_eq_self.2 (by simp)]

/-- Reading and summing the interleaved reshape. -/
theorem tileReduce_ok {α : Type} [AddCommMonoid α] (m : Arr α) (tiles shape : List Nat)
    (hl : tiles.length = shape.length) (hpos : 0 < shape.length) (hm : m.shape.length ≤ shape.length)
    (hax : ∀ k, axisLen m.shape k = axisLen tiles k * axisLen shape k) :
    ∃ y, tileReduce m tiles shape = .ok y ∧ y.shape = shape ∧ ∀ p, ValidIn shape p →
      y.get p = sumOver tiles fun τ => m.get fun k => p k + axisLen shape k * τ k := by
  set n := shape.length with hn
  set l := (tiles.zip shape).reverse with hlz
  have hll : l.length = n := by rw [hlz]; simp; omega
  set s := (tiles.zip shape).flatMap fun p => [p.1, p.2] with hs
  have hsr : s.reverse = l.flatMap fun p => [p.2, p.1] := by
    rw [hs, List.reverse_flatMap, hlz]
    rfl
  have hsl : s.length = 2 * n := by
    have h1 : ∀ q : List (Nat × Nat), (q.flatMap fun p => [p.1, p.2]).length = 2 * q.length := by
      intro q
      induction q with
      | nil => rfl
      | cons a q ih => rw [List.flatMap_cons, List.length_append, ih]; simp; omega
    rw [hs, h1]
    simp
    omega
  have hlk : ∀ k, (l.getD k (1, 1)).1 = axisLen tiles k ∧ (l.getD k (1, 1)).2 = axisLen shape k := by
    intro k
    have e : l = tiles.reverse.zip shape.reverse := by
      rw [hlz]
      exact List.reverse_zipWith hl
    rw [List.getD_eq_getElem?_getD]
    by_cases hk : k < n
    · rw [e, List.getElem?_zip_eq_some.2 (⟨List.getElem?_eq_getElem (by simp; omega),
        List.getElem?_eq_getElem (by simp; omega)⟩ : tiles.reverse[k]? = some
          (tiles.reverse[k]'(by simp; omega), shape.reverse[k]'(by simp; omega)).1 ∧ shape.reverse[k]? = some
          (tiles.reverse[k]'(by simp; omega), shape.reverse[k]'(by simp; omega)).2)]
      unfold axisLen
      rw [List.getElem?_eq_getElem (by simp; omega), List.getElem?_eq_getElem (by simp; omega)]
      exact ⟨rfl, rfl⟩
    · rw [List.getElem?_eq_none (by omega), axisLen_of_ge (by omega), axisLen_of_ge (by omega)]
      exact ⟨rfl, rfl⟩
  have hsax : ∀ k, axisLen s (2 * k) = axisLen shape k ∧ axisLen s (2 * k + 1) = axisLen tiles k := by
    intro k
    have h1 := inter_getElem l k
    have h2 := hlk k
    rw [List.getD_eq_getElem?_getD] at h2
    unfold axisLen at *
    rw [hsr, h1.1, h1.2]
    rw [← h2.1, ← h2.2]
    rcases l[k]? with _ | q <;> exact ⟨rfl, rfl⟩
  -- the shape of `m`, from the right, padded
  have hmr : l.map (fun p => p.1 * p.2) = m.shape.reverse ++ List.replicate (n - m.shape.length) 1 := by
    apply List.ext_getElem
    · simp; omega
    · intro k h1 h2
      have hk : k < n := by simpa [hll] using h1
      have h3 := hlk k
      rw [List.getD_eq_getElem?_getD, List.getElem?_eq_getElem (by omega)] at h3
      have h4 := hax k
      rw [← h3.1, ← h3.2] at h4
      rw [List.getElem_map]
      simp only [Option.getD_some] at h4
      rw [← h4]
      unfold axisLen
      by_cases hkm : k < m.shape.length
      · rw [List.getElem_append_left (by simpa using hkm), List.getElem?_eq_getElem (by simpa using hkm)]
        rfl
      · rw [List.getElem_append_right (by simpa using hkm), List.getElem_replicate,
          List.getElem?_eq_none (by simpa using hkm)]
        rfl
  have hprod : s.prod = m.shape.prod := by
    have h1 : ∀ q : List (Nat × Nat), (q.flatMap fun p => [p.1, p.2]).prod = (q.map fun p => p.1 * p.2).prod := by
      intro q
      induction q with
      | nil => rfl
      | cons a q ih => rw [List.flatMap_cons, List.prod_append, ih]; simp
    rw [hs, h1]
    have h2 : ((tiles.zip shape).map fun p => p.1 * p.2).prod = (l.map fun p => p.1 * p.2).prod := by
      rw [hlz, List.map_reverse, List.prod_reverse]
    rw [h2, hmr, List.prod_append, List.prod_reverse]
    simp
  obtain ⟨x, hx⟩ : ∃ x, npReshape m s = .ok x := by
    unfold npReshape
    rw [if_pos hprod]
    exact ⟨_, rfl⟩
  obtain ⟨hxs, hxget⟩ := npReshape_get hx
  -- reading the reshaped array
  have hread : ∀ c, (∀ k, c (2 * k) < axisLen shape k) → (∀ k, c (2 * k + 1) < axisLen tiles k) →
      x.at c = m.get fun k => c (2 * k) + axisLen shape k * c (2 * k + 1) := by
    intro c h1 h2
    have hv : ValidIn x.shape c := by
      rw [hxs]
      intro k
      rcases Nat.even_or_odd' k with ⟨j, rfl | rfl⟩
      · rw [(hsax j).1]; exact h1 j
      · rw [(hsax j).2]; exact h2 j
    have hv' : ValidIn m.shape fun k => c (2 * k) + axisLen shape k * c (2 * k + 1) := by
      intro k
      rw [hax]
      have := h1 k
      have := h2 k
      show c (2 * k) + axisLen shape k * c (2 * k + 1) < _
      calc c (2 * k) + axisLen shape k * c (2 * k + 1) < axisLen shape k * (c (2 * k + 1) + 1) := by
            rw [Nat.mul_add]; omega
        _ ≤ axisLen shape k * axisLen tiles k := Nat.mul_le_mul_left _ (by omega)
        _ = _ := Nat.mul_comm _ _
    rw [x.at_of_valid hv]
    apply hxget _ _ hv'
    rw [hsr, flatR_inter]
    have e1 : (fun k => c (2 * k) + (l.getD k (1, 1)).2 * c (2 * k + 1)) =
        fun k => c (2 * k) + axisLen shape k * c (2 * k + 1) := by
      funext k; rw [(hlk k).2]
    rw [e1, hmr, flatR_append_ones]
    intro k hk
    have h3 := hv' k
    rw [axisLen_of_ge (by simpa using hk)] at h3
    exact Nat.lt_one_iff.1 h3
  -- the axes of the sum
  set axes := (List.range s.length).filter (fun i => i % 2 = 0) with haxes
  have haxes' : axes = (List.range n).map fun i => 2 * i := by rw [haxes, hsl, filter_even_range]
  set ks := axes.map (fun i => x.shape.length - 1 - i) with hks
  have hks' : ks = ((List.range n).map fun j => 2 * j + 1).reverse := by
    rw [hks, haxes', hxs, hsl]
    apply List.ext_getElem
    · simp
    · intro i h1 h2
      simp at h1 h2 ⊢
      omega
  have hmem : ∀ k, k ∈ ks ↔ ∃ j, j < n ∧ k = 2 * j + 1 := by
    intro k
    rw [hks']
    simp
    constructor
    · rintro ⟨j, h1, h2⟩; exact ⟨j, h1, h2.symm⟩
    · rintro ⟨j, h1, h2⟩; exact ⟨j, h1, h2.symm⟩
  have hcount : ∀ k, k < n → ((List.range (2 * k)).filter (· ∉ ks)).length = k := by
    intro k hk
    have : (List.range (2 * k)).filter (· ∉ ks) = (List.range (2 * k)).filter (fun i => i % 2 = 0) := by
      apply List.filter_congr
      intro i hi
      rw [List.mem_range] at hi
      rw [decide_eq_decide, hmem]
      constructor
      · intro h
        by_contra hodd
        exact h ⟨i / 2, by omega, by omega⟩
      · rintro h ⟨j, _, hj⟩
        omega
    rw [this, filter_even_range]
    simp
  let y : Arr α :=
    { shape := ((List.range x.shape.length).filter (· ∉ axes)).map fun i => x.shape.getD i 1
      get := fun c => sumAxes (ks.map fun k => (k, axisLen x.shape k)) x.at fun k =>
        if k ∈ ks then 0 else c ((List.range k).filter (· ∉ ks)).length }
  have hy : npSumDrop x axes = .ok y := by
    unfold npSumDrop
    simp only []
    rw [if_pos]
    refine ⟨?_, ?_⟩
    · intro i hi
      rw [haxes, List.mem_filter, List.mem_range] at hi
      rw [hxs]
      exact hi.1
    · exact List.nodup_range.filter _
  refine ⟨y, ?_, ?_, ?_⟩
  · unfold tileReduce
    simp only []
    have hne : (tiles.zip shape).isEmpty = false := by
      rw [List.isEmpty_eq_false_iff]
      intro h
      have h9 := congrArg List.length h
      rw [List.length_zip, hl, List.length_nil, Nat.min_self] at h9
      omega
    rw [hne]
    show (npReshape m s >>= _) = _
    rw [hx]
    exact hy
  · show ((List.range x.shape.length).filter (· ∉ axes)).map (fun i => x.shape.getD i 1) = shape
    rw [hxs]
    have : (List.range s.length).filter (· ∉ axes) = (List.range n).map fun i => 2 * i + 1 := by
      rw [hsl, ← filter_odd_range]
      apply List.filter_congr
      intro i hi
      rw [List.mem_range] at hi
      rw [decide_eq_decide, haxes, List.mem_filter, List.mem_range, hsl]
      simp [hi]
    rw [this, List.map_map]
    apply List.ext_getElem
    · simp; exact hn
    · intro i h1 h2
      rw [List.getElem_map, List.getElem_range]
      show s.getD (2 * i + 1) 1 = _
      have hin : i < n := h2
      have h3 := (hsax (n - 1 - i)).1
      unfold axisLen at h3
      rw [List.getElem?_reverse (by omega), List.getElem?_reverse (by omega), hsl,
        show 2 * n - 1 - 2 * (n - 1 - i) = 2 * i + 1 by omega,
        show shape.length - 1 - (n - 1 - i) = i by omega] at h3
      rw [List.getD_eq_getElem?_getD, h3, List.getElem?_eq_getElem (by omega)]
      rfl
  · intro p hp
    have hpz : ∀ k, n ≤ k → p k = 0 := by
      intro k hk
      have := hp k
      rw [axisLen_of_ge (by omega)] at this
      omega
    show sumAxes (ks.map fun k => (k, axisLen x.shape k)) x.at (fun k =>
        if k ∈ ks then 0 else p ((List.range k).filter (· ∉ ks)).length) = _
    have hnd : (ks.map fun k => (k, axisLen x.shape k)).map (·.1) = ks := by
      rw [List.map_map]
      simp [Function.comp_def]
    have hksnd : ks.Nodup := by
      rw [hks', List.nodup_reverse]
      exact List.nodup_range.map (fun a b h => by simpa using h)
    rw [sumOver_eq_sumAxes_rev]
    -- the summand as a function of the odd coordinates
    rw [sumAxes_congr' (g := fun e => (fun τ => m.get fun k => p k + axisLen shape k * τ k)
      (e ∘ fun k => 2 * k + 1)) _ (by rw [hnd]; exact hksnd)]
    · have hrev : (ks.map fun k => (k, axisLen x.shape k)).Perm
          (((List.range tiles.length).map fun k => (k, axisLen tiles k)).map fun q => (2 * q.1 + 1, q.2)) := by
        rw [hks', List.map_reverse]
        refine (List.reverse_perm _).trans ?_
        rw [List.map_map, List.map_map, hl]
        apply List.Perm.of_eq
        apply List.map_congr_left
        intro k _
        show (2 * k + 1, axisLen x.shape (2 * k + 1)) = (2 * k + 1, axisLen tiles k)
        rw [hxs, (hsax k).2]
      rw [sumAxes_perm hrev (by rw [hnd]; exact hksnd)]
      refine (sumAxes_rename ((List.range tiles.length).map fun k => (k, axisLen tiles k))
        (fun τ => m.get fun k => p k + axisLen shape k * τ k) (fun k => 2 * k + 1)
        (by intro q _ k h; replace h : 2 * k + 1 = 2 * q.1 + 1 := h; omega) _).trans ?_
      apply sumAxes_base
      intro k hk
      show (if 2 * k + 1 ∈ ks then 0 else _) = 0
      have hkn : n ≤ k := by
        by_contra h
        apply hk
        simp
        omega
      split
      · rfl
      · apply hpz
        have hsub : ((List.range n).map fun i => 2 * i).Sublist (((List.range (2 * k + 1)).filter (· ∉ ks))) := by
          have h1 : (List.range (2 * n)).filter (fun i => i % 2 = 0) =
              (List.range (2 * n)).filter (· ∉ ks) := by
            apply List.filter_congr
            intro i hi
            rw [List.mem_range] at hi
            rw [decide_eq_decide, hmem]
            constructor
            · rintro h ⟨j, _, hj⟩; omega
            · intro h
              by_contra hodd
              exact h ⟨i / 2, by omega, by omega⟩
          rw [← filter_even_range, h1]
          exact (List.range_sublist.2 (by omega)).filter _
        have := hsub.length_le
        simpa using this
    · intro e he hlt
      have he0 : ∀ k, e (2 * k) = if k < n then p k else e (2 * k) := by
        intro k
        split
        · rename_i hk
          rw [he (2 * k) (by rw [hnd, hmem]; rintro ⟨j, _, hj⟩; omega)]
          rw [if_neg (by rw [hmem]; rintro ⟨j, _, hj⟩; omega), hcount k hk]
        · rfl
      -- beyond the rank, both sides ignore the coordinate
      have hcut : x.at e = x.at (fun k => if k < 2 * n then e k else 0) := by
        apply x.at_congr
        intro k hk
        have : k < 2 * n := by
          by_contra h
          exact hk (by rw [hxs]; exact axisLen_of_ge (by omega))
        rw [if_pos this]
      rw [hcut, hread]
      · congr 1
        funext k
        show (if 2 * k < 2 * n then e (2 * k) else 0) + axisLen shape k * (if 2 * k + 1 < 2 * n then e (2 * k + 1) else 0) =
          p k + axisLen shape k * e (2 * k + 1)
        by_cases hk : k < n
        · rw [if_pos (by omega), if_pos (by omega), he0, if_pos hk]
        · rw [if_neg (by omega), if_neg (by omega), hpz k (by omega)]
          have h1 := he (2 * k + 1) (by rw [hnd, hmem]; rintro ⟨j, h1, hj⟩; omega)
          rw [if_neg (by rw [hmem]; rintro ⟨j, h1, hj⟩; omega)] at h1
          rw [h1, hpz]
          have hsub : ((List.range n).map fun i => 2 * i).Sublist (((List.range (2 * k + 1)).filter (· ∉ ks))) := by
            have h1 : (List.range (2 * n)).filter (fun i => i % 2 = 0) =
                (List.range (2 * n)).filter (· ∉ ks) := by
              apply List.filter_congr
              intro i hi
              rw [List.mem_range] at hi
              rw [decide_eq_decide, hmem]
              constructor
              · rintro h ⟨j, _, hj⟩; omega
              · intro h
                by_contra hodd
                exact h ⟨i / 2, by omega, by omega⟩
            rw [← filter_even_range, h1]
            exact (List.range_sublist.2 (by omega)).filter _
          have := hsub.length_le
          simpa using this
      · intro k
        show (if 2 * k < 2 * n then e (2 * k) else 0) < _
        by_cases hk : k < n
        · rw [if_pos (by omega), he0, if_pos hk]; exact hp k
        · rw [if_neg (by omega), axisLen_of_ge (by omega)]; omega
      · intro k
        show (if 2 * k + 1 < 2 * n then e (2 * k + 1) else 0) < _
        by_cases hk : k < n
        · rw [if_pos (by omega)]
          have := hlt (2 * k + 1, axisLen x.shape (2 * k + 1))
            (List.mem_map.2 ⟨2 * k + 1, (hmem _).2 ⟨k, hk, rfl⟩, rfl⟩)
          rwa [hxs, (hsax k).2] at this
        · rw [if_neg (by omega), axisLen_of_ge (by omega)]; omega

end Verif
