import Verif.Lemmas.BandPlates
import Verif.Props.BlockBandedSolve
import Verif.Spec.BandPlates

/-!
# C85: the smoother of Gaussian Markov chains on whole arrays
-/

namespace Verif
open Spec Matrix

variable {D : Nat}

theorem extend_valid {p P : List Nat} (h : BroadcastsTo p P) (hpos : ∀ k, 0 < axisLen P k) {c : Nat → Nat} (hc : ValidIn p c) :
    ∃ c', ValidIn P c' ∧ restrict p c' = c := by
  refine ⟨fun k => if axisLen p k = 1 then 0 else c k, fun k => ?_, ?_⟩
  · show (if axisLen p k = 1 then 0 else c k) < _
    split
    · exact hpos k
    · rename_i e
      rcases h.2 k with h' | h'
      · exact absurd h' e
      · rw [← h']; exact hc k
  · funext k
    show (if axisLen p k = 1 then 0 else if axisLen p k = 1 then 0 else c k) = c k
    split
    · rename_i e
      have := hc k
      omega
    · rfl

section sim

variable {pV pX pB : List Nat} {A B : Nat → Arr (Matrix (Fin D) (Fin D) ℝ)} {y : Nat → Arr (Fin D → ℝ)}

theorem plateForwardLoop (hs : BroadcastsTo pV pX) (hA : ∀ n, BroadcastsTo (A n).shape pV) (hB : ∀ n, (B n).shape = pB)
    (hBV : BroadcastsTo pB pV) (hall : ∀ k, axisLen pV k = 1 ∨ axisLen pB k = axisLen pV k) (hlen : pV.length ≤ pB.length + 1)
    (hy : ∀ n, BroadcastsTo (y n).shape pX) (hpos : ∀ k, 0 < axisLen pX k) (S : PlateBand D) (hS : S.Shaped pV pX) (m : Nat) :
    ((∀ c, ValidIn pX c → ∃ t, (List.range m).foldlM
        (bandForward (fun k => (A k).at c) (fun k => (B k).at c) fun k => (y k).at c) (S.plate c) = .ok t) →
      ∃ S', (List.range m).foldlM (plateForward pV pX A B y) S = .ok S' ∧ S'.Shaped pV pX ∧
        ∀ c, ValidIn pX c → (List.range m).foldlM
          (bandForward (fun k => (A k).at c) (fun k => (B k).at c) fun k => (y k).at c) (S.plate c) = .ok (S'.plate c)) ∧
    ((∃ c, ValidIn pX c ∧ ∀ t, (List.range m).foldlM
        (bandForward (fun k => (A k).at c) (fun k => (B k).at c) fun k => (y k).at c) (S.plate c) ≠ .ok t) →
      (List.range m).foldlM (plateForward pV pX A B y) S = .error .exception) := by
  induction m with
  | zero => exact ⟨fun _ => ⟨S, rfl, hS, fun c _ => rfl⟩, fun ⟨c, _, h⟩ => absurd rfl (h _)⟩
  | succ m ih =>
    have hsplit : ∀ c, (List.range (m + 1)).foldlM
        (bandForward (fun k => (A k).at c) (fun k => (B k).at c) fun k => (y k).at c) (S.plate c) =
        ((List.range m).foldlM (bandForward (fun k => (A k).at c) (fun k => (B k).at c) fun k => (y k).at c) (S.plate c)).bind
          fun t => bandForward (fun k => (A k).at c) (fun k => (B k).at c) (fun k => (y k).at c) t m := by
      intro c
      rw [List.range_succ, List.foldlM_append]
      simp only [List.foldlM_cons, List.foldlM_nil, bind_pure]
      rfl
    have hsplit' : (List.range (m + 1)).foldlM (plateForward pV pX A B y) S =
        ((List.range m).foldlM (plateForward pV pX A B y) S).bind fun t => plateForward pV pX A B y t m := by
      rw [List.range_succ, List.foldlM_append]
      simp only [List.foldlM_cons, List.foldlM_nil, bind_pure]
      rfl
    constructor
    · intro hok
      obtain ⟨S1, h1, h2, h3⟩ := ih.1 fun c hc => by
        obtain ⟨t, ht⟩ := hok c hc
        rw [hsplit] at ht
        exact ok_of_bind ht
      obtain ⟨S2, g1, g2, g3⟩ := plateForward_ok hs hA hB hBV hall hlen hy (fun c hc => extend_valid hs hpos hc) S1 h2 m fun c hc => by
        obtain ⟨t, ht⟩ := hok c hc
        rw [hsplit, h3 c hc] at ht
        exact ⟨t, ht⟩
      refine ⟨S2, ?_, g2, fun c hc => ?_⟩
      · rw [hsplit', h1]; exact g1
      · rw [hsplit, h3 c hc]; exact g3 c hc
    · rintro ⟨c, hc, he⟩
      rw [hsplit']
      by_cases hm : ∀ c, ValidIn pX c → ∃ t, (List.range m).foldlM
        (bandForward (fun k => (A k).at c) (fun k => (B k).at c) fun k => (y k).at c) (S.plate c) = .ok t
      · obtain ⟨S1, h1, h2, h3⟩ := ih.1 hm
        rw [h1]
        refine plateForward_error hs hA hB hBV hall hlen hy S1 h2 m hc fun t ht => he t ?_
        rw [hsplit, h3 c hc]
        exact ht
      · rw [ih.2 (by push Not at hm; exact hm)]
        rfl

theorem plateBackwardLoop (hs : BroadcastsTo pV pX) (hB : ∀ n, BroadcastsTo (B n).shape pV) (L : List Nat) (S : PlateBand D)
    (hS : S.Shaped pV pX) :
    ∃ S', L.foldlM (plateBackward pV pX B) S = .ok S' ∧ S'.Shaped pV pX ∧ ∀ c, ValidIn pX c →
      S'.plate c = L.foldl (bandBackward fun k => (B k).at c) (S.plate c) := by
  induction L generalizing S with
  | nil => exact ⟨S, rfl, hS, fun c _ => rfl⟩
  | cons n L ih =>
    obtain ⟨S1, h1, h2, h3⟩ := plateBackward_ok hs hB S hS n
    obtain ⟨S2, g1, g2, g3⟩ := ih S1 h2
    refine ⟨S2, ?_, g2, fun c hc => ?_⟩
    · rw [List.foldlM_cons, h1]; exact g1
    · rw [g3 c hc, h3 c hc]; rfl

theorem blockBandedSolve_unfold (M : Nat) (A B : Nat → Matrix (Fin D) (Fin D) ℝ) (y : Nat → Fin D → ℝ) :
    blockBandedSolve (M + 1) M (M + 1) A B y = (chol (A 0)).bind fun U =>
      ((List.range M).foldlM (bandForward A B y) (⟨Function.update (fun _ => 0) 0 U, fun _ => 0,
        Function.update (fun _ => 0) 0 (y 0), cholLogdet U⟩ : BandState D)).bind fun s =>
      .ok ((List.range M).reverse.foldl (bandBackward B) { s with
        x := Function.update s.x M (cholSolve (s.V M) (s.x M))
        V := Function.update s.V M (cholInv (s.V M)) }) := by
  unfold blockBandedSolve
  simp only [ne_eq, not_true_eq_false, if_false, Nat.add_sub_cancel]
  rfl

theorem bandPlates_sim {pA pY : List Nat} (M : Nat) (hA : ∀ n, (A n).shape = pA) (hB : ∀ n, (B n).shape = pB)
    (hy : ∀ n, (y n).shape = pY) (hV : IsBroadcast [pA, pB] pV) (hX : IsBroadcast [pV, pY] pX) (hpos : ∀ k, 0 < axisLen pX k)
    (hall : ∀ k, axisLen pA k = 1 ∨ axisLen pB k = axisLen pA k) (hlen : pA.length ≤ pB.length + 1) :
    ((∀ c, ValidIn pX c → ∃ t, blockBandedSolve (M + 1) M (M + 1) (fun k => (A k).at c) (fun k => (B k).at c)
        (fun k => (y k).at c) = .ok t) →
      ∃ S, bandPlates (M + 1) pA pB pY A B y = .ok S ∧ S.Shaped pV pX ∧ ∀ c, ValidIn pX c →
        blockBandedSolve (M + 1) M (M + 1) (fun k => (A k).at c) (fun k => (B k).at c) (fun k => (y k).at c) =
          .ok (S.plate c)) ∧
    ((∃ c, ValidIn pX c ∧ ∀ t, blockBandedSolve (M + 1) M (M + 1) (fun k => (A k).at c) (fun k => (B k).at c)
        (fun k => (y k).at c) ≠ .ok t) → bandPlates (M + 1) pA pB pY A B y = .error .exception) := by
  have hs : BroadcastsTo pV pX := Verif.IsBroadcast.to hX (by simp)
  have hAV : BroadcastsTo pA pV := Verif.IsBroadcast.to hV (by simp)
  have hBV : BroadcastsTo pB pV := Verif.IsBroadcast.to hV (by simp)
  have hYX : BroadcastsTo pY pX := Verif.IsBroadcast.to hX (by simp)
  have hA' : ∀ n, BroadcastsTo (A n).shape pV := fun n => shape_to (hA n) hAV
  have hy' : ∀ n, BroadcastsTo (y n).shape pX := fun n => shape_to (hy n) hYX
  have hall' : ∀ k, axisLen pV k = 1 ∨ axisLen pB k = axisLen pV k := fun k => by
    rcases hV.attained k with h | ⟨s, hs', h⟩
    · exact .inl h
    · rcases List.mem_cons.1 hs' with rfl | hs'
      · rcases hall k with h' | h'
        · exact .inl (by omega)
        · exact .inr (by omega)
      · rw [List.mem_singleton.1 hs'] at h; exact .inr h
  have hlen' : pV.length ≤ pB.length + 1 := by
    rcases hV.rank_le with h | ⟨s, hs', h⟩
    · omega
    · rcases List.mem_cons.1 hs' with rfl | hs'
      · omega
      · rw [List.mem_singleton.1 hs'] at h; omega
  obtain ⟨x0, a1, a2, a3, -⟩ := fill_ok (hy' 0)
  have hAX := BroadcastsTo.trans' hAV hs
  by_cases h0 : ∀ c, ValidIn pX c → ∃ U, chol ((A 0).at c) = .ok U
  swap
  · push Not at h0
    obtain ⟨c, hc, h0⟩ := h0
    have hne : ∀ t, blockBandedSolve (M + 1) M (M + 1) (fun k => (A k).at c) (fun k => (B k).at c) (fun k => (y k).at c) ≠ .ok t :=
      fun t ht => by
        rw [blockBandedSolve_unfold] at ht
        obtain ⟨U, hU⟩ := ok_of_bind ht
        exact h0 U hU
    refine ⟨fun h => ?_, fun _ => ?_⟩
    · obtain ⟨t, ht⟩ := h c hc
      exact absurd ht (hne t)
    · have he := cholPlates_error (hA 0) (restrict_valid hAX.2 hc) fun U hU => h0 U (by
        rwa [← at_of_shape (hA 0) (restrict_valid hAX.2 hc), at_restrict (shape_to (hA 0) (BroadcastsTo_refl pA))] at hU)
      unfold bandPlates
      simp only [(broadcastedShape_ok _ _).2 hV, (broadcastedShape_ok _ _).2 hX, a1, he, bind, Except.bind]
  obtain ⟨R, r1, r2, r3⟩ := cholPlates_ok (hA 0) (fun c hc => by
    obtain ⟨c', g1, g2⟩ := extend_valid hAX hpos hc
    obtain ⟨U, hU⟩ := h0 c' g1
    rw [← at_restrict (shape_to (hA 0) (BroadcastsTo_refl pA)), g2, at_of_shape (hA 0) hc] at hU
    exact ⟨U, hU⟩)
  have hR : ∀ c, ValidIn pX c → chol ((A 0).at c) = .ok (R.at c) := fun c hc => by
    have h := r3 _ (restrict_valid hAX.2 hc)
    rw [← at_of_shape (hA 0) (restrict_valid hAX.2 hc), ← at_of_shape r2 (restrict_valid hAX.2 hc),
      at_restrict (shape_to (hA 0) (BroadcastsTo_refl pA)), at_restrict (shape_to r2 (BroadcastsTo_refl pA))] at h
    exact h
  obtain ⟨v, v1, v2, v3, v4⟩ := fill_ok (shape_to r2 hAV)
  set S0 : PlateBand D := ⟨Function.update (fun _ => ⟨pV, fun _ => 0⟩) 0 v, fun _ => ⟨pV, fun _ => 0⟩,
    Function.update (fun _ => ⟨pX, fun _ => 0⟩) 0 x0, v.map cholLogdet⟩ with hS0
  have hsh : S0.Shaped pV pX := by
    refine ⟨update_shape (fun _ => rfl) _ v2, fun m c c' h => ?_, fun _ => rfl, update_shape (fun _ => rfl) _ a2, v2⟩
    by_cases e : m = 0
    · subst e; simp only [hS0, Function.update_self]; exact v4 c c' h
    · simp only [hS0, Function.update_of_ne e]
  have hplate : ∀ c, ValidIn pX c → S0.plate c = ⟨Function.update (fun _ => 0) 0 (R.at c), fun _ => 0,
      Function.update (fun _ => 0) 0 ((y 0).at c), cholLogdet (R.at c)⟩ := fun c _ => by
    simp only [hS0, PlateBand.plate, update_at, v3, a3, map_at']
    rfl
  obtain ⟨f1, f2⟩ := plateForwardLoop hs hA' hB hBV hall' hlen' hy' hpos S0 hsh M
  have hone : ∀ c, ValidIn pX c → blockBandedSolve (M + 1) M (M + 1) (fun k => (A k).at c) (fun k => (B k).at c)
      (fun k => (y k).at c) = ((List.range M).foldlM (bandForward (fun k => (A k).at c) (fun k => (B k).at c)
        fun k => (y k).at c) (S0.plate c)).bind fun s =>
      .ok ((List.range M).reverse.foldl (bandBackward fun k => (B k).at c) { s with
        x := Function.update s.x M (cholSolve (s.V M) (s.x M))
        V := Function.update s.V M (cholInv (s.V M)) }) := fun c hc => by
    rw [blockBandedSolve_unfold, hplate c hc, hR c hc]
    rfl
  constructor
  · intro hok
    obtain ⟨S1, g1, g2, g3⟩ := f1 fun c hc => by
      obtain ⟨t, ht⟩ := hok c hc
      rw [hone c hc] at ht
      exact ok_of_bind ht
    obtain ⟨z, b1, b2, b3⟩ := cholSolveVec_ok (g2.V M) (g2.get M) (g2.x M) hs
    obtain ⟨z', d1, d2, d3, -⟩ := fill_ok (shape_to b2 (BroadcastsTo_refl pX))
    obtain ⟨i1, i2⟩ := cholInv_ok (g2.V M) hs
    obtain ⟨w, w1, w2, w3, w4⟩ := fill_ok (v := cholInvPlates cholSolveM (S1.V M) 1) (shape_to i1 (BroadcastsTo_refl pV))
    obtain ⟨S3, k1, k2, k3⟩ := plateBackwardLoop hs (fun n => shape_to (hB n) hBV) (List.range M).reverse
      ⟨Function.update S1.V M w, S1.C, Function.update S1.x M z', S1.ldet⟩ (by
        refine ⟨update_shape g2.V _ w2, fun m c c' h => ?_, g2.C, update_shape g2.x _ d2, g2.ldet⟩
        by_cases e : m = M
        · subst e; simp only [Function.update_self]; exact w4 c c' h
        · simp only [Function.update_of_ne e]; exact g2.get m c c' h)
    refine ⟨S3, ?_, k2, fun c hc => ?_⟩
    · unfold bandPlates
      simp only [(broadcastedShape_ok _ _).2 hV, (broadcastedShape_ok _ _).2 hX, a1, r1, v1, ← hS0, g1, Nat.add_sub_cancel, b1, d1, w1, bind,
        Except.bind]
      exact k1
    · rw [hone c hc, g3 c hc]
      show Except.ok _ = Except.ok _
      rw [k3 c hc]
      simp only [PlateBand.plate, update_at, w3, i2 c hc, d3, b3 c hc]
  · rintro ⟨c, hc, he⟩
    have := f2 ⟨c, hc, fun t ht => by
      obtain ⟨t', ht'⟩ := bind_of_ok (f := fun s => (List.range M).reverse.foldl (bandBackward fun k => (B k).at c) { s with
        x := Function.update s.x M (cholSolve (s.V M) (s.x M))
        V := Function.update s.V M (cholInv (s.V M)) }) ht
      exact he t' ((hone c hc).trans ht')⟩
    unfold bandPlates
    simp only [(broadcastedShape_ok _ _).2 hV, (broadcastedShape_ok _ _).2 hX, a1, r1, v1, ← hS0, this, Nat.add_sub_cancel, bind, Except.bind]

end sim

theorem coord_snoc (p : List Nat) (t : Nat) : coord (p ++ [t]) = atLast (coord p) t := by
  funext k
  rw [coord_append']
  cases k with
  | zero => simp [coord, atLast]
  | succ k => simp [atLast]

theorem coord_snoc2 (p : List Nat) (n t : Nat) : coord (p ++ [n, t]) = atLast (atLast (coord p) n) t := by
  rw [show p ++ [n, t] = p ++ [n] ++ [t] by simp, coord_snoc, coord_snoc]

theorem coord_snoc3 (p : List Nat) (n i j : Nat) : coord (p ++ [n, i, j]) = atLast (atLast (atLast (coord p) n) i) j := by
  rw [show p ++ [n, i, j] = p ++ [n, i] ++ [j] by simp, coord_snoc, coord_snoc2]

theorem timeBlock_at {X : Arr ℝ} {P : List Nat} {N n : Nat} (hX : X.shape = P ++ [N, D, D]) (hn : n < N) (p : List Nat) :
    (timeBlock D X n).at (coord p) = plateBlock D X p n := by
  have hs : (timeBlock D X n).shape = P := by simp [timeBlock, hX]
  ext i j
  unfold Arr.at plateBlock
  rw [hs]
  show X.get _ = X.get _
  rw [hX, coord_snoc3, show P ++ [N, D, D] = P ++ [N] ++ [D] ++ [D] by simp, restrict_atLast _ j.2, restrict_atLast _ i.2,
    restrict_atLast _ hn]

theorem timeVector_at {X : Arr ℝ} {P : List Nat} {N n : Nat} (hX : X.shape = P ++ [N, D]) (hn : n < N) (p : List Nat) :
    (timeVector D X n).at (coord p) = plateVector D X p n := by
  have hs : (timeVector D X n).shape = P := by simp [timeVector, hX]
  funext i
  unfold Arr.at plateVector
  rw [hs]
  show X.get _ = X.get _
  rw [hX, coord_snoc2, show P ++ [N, D] = P ++ [N] ++ [D] by simp, restrict_atLast _ i.2, restrict_atLast _ hn]

theorem blockTridiagonal_congr {N : Nat} {A A' B B' : Nat → Matrix (Fin D) (Fin D) ℝ} (hA : ∀ n < N, A n = A' n)
    (hB : ∀ n, n + 1 < N → B n = B' n) : blockTridiagonal N A B = blockTridiagonal N A' B' := by
  funext p q
  unfold blockTridiagonal
  rw [hA _ p.1.2]
  split
  · rfl
  · split
    · rename_i h; rw [hB _ (by have := q.1.2; omega)]
    · split
      · rename_i h; rw [hB _ (by have := p.1.2; omega)]
      · rfl

theorem solve_run {A B y : Arr ℝ} {pA pB pY : List Nat} {M : Nat} (hA : A.shape = pA ++ [M + 1, D, D])
    (hB : B.shape = pB ++ [M, D, D]) (hy : y.shape = pY ++ [M + 1, D]) :
    blockBandedSolveArr A B y = (bandPlates (M + 1) pA pB pY (timeBlock D A) (timeBlock D B) (timeVector D y)).bind
      fun s => .ok ⟨D, s⟩ := by
  have hl : axisLen y.shape 0 = D := by rw [hy]; simp [axisLen]
  subst hl
  have q0 : axisLen y.shape 1 = M + 1 := by rw [hy]; simp [axisLen]
  have q1 : ¬ y.shape.length < 2 := by rw [hy]; simp
  have q2 : ¬ A.shape.length < 3 := by rw [hA]; simp
  have q3 : axisLen A.shape 2 = M + 1 := by rw [hA]; simp [axisLen]
  have q4 : axisLen A.shape 1 = axisLen y.shape 0 := by rw [hA]; simp [axisLen]
  have q5 : axisLen A.shape 0 = axisLen y.shape 0 := by rw [hA]; simp [axisLen]
  have q6 : ¬ B.shape.length < 3 := by rw [hB]; simp
  have q7 : axisLen B.shape 2 = M := by rw [hB]; simp [axisLen]
  have q8 : axisLen B.shape 1 = axisLen y.shape 0 := by rw [hB]; simp [axisLen]
  have q9 : axisLen B.shape 0 = axisLen y.shape 0 := by rw [hB]; simp [axisLen]
  have t1 : A.shape.take (A.shape.length - 3) = pA := by rw [hA]; simp
  have t2 : B.shape.take (B.shape.length - 3) = pB := by rw [hB]; simp
  have t3 : y.shape.take (y.shape.length - 2) = pY := by rw [hy]; simp
  unfold blockBandedSolveArr
  simp only [q0, q1, q2, q3, q4, q5, q6, q7, q8, q9, t1, t2, t3, if_false, ne_eq, not_true_eq_false, or_self]
  rfl

/-- **C85** `block_banded_solve` on arrays with plates: the arrays `A`, `B` and `y` have plates `pA`, `pB` and `pY` that broadcast
together, to `pV` for the matrices and to `pX` for all; no plate axis is empty.  If the super-diagonal blocks have every plate of
the diagonal blocks (`hall`, `hlen`), then the function succeeds exactly if the matrices of all plates are positive definite, and
gives on every plate the solution, the blocks of the inverse and the log determinant of that plate.  Partial: without `hall` the
results are wrong, see `C85_shared_offdiagonal_refuted`. -/
theorem C85_plates_partial {A B y : Arr ℝ} {pA pB pY pV pX : List Nat} {M : Nat} (hA : A.shape = pA ++ [M + 1, D, D])
    (hB : B.shape = pB ++ [M, D, D]) (hy : y.shape = pY ++ [M + 1, D]) (hV : IsBroadcast [pA, pB] pV) (hX : IsBroadcast [pV, pY] pX)
    (hpos : ∀ k, 0 < axisLen pX k) (hall : ∀ k, axisLen pA k = 1 ∨ axisLen pB k = axisLen pA k) (hlen : pA.length ≤ pB.length + 1)
    (hsymm : ∀ p ∈ indices pX, ∀ n ≤ M, (plateBlock D A p n).IsSymm) :
    ((∀ p ∈ indices pX, (blockTridiagonal (M + 1) (plateBlock D A p) (plateBlock D B p)).PosDef) →
      ∃ S, blockBandedSolveArr A B y = .ok ⟨D, S⟩ ∧ (∀ n, (S.V n).shape = pV) ∧ (∀ n, (S.C n).shape = pV) ∧
        (∀ n, (S.x n).shape = pX) ∧ S.ldet.shape = pV ∧
        ∀ p ∈ indices pX, BandSolution M (plateBlock D A p) (plateBlock D B p) (plateVector D y p) (fun n => (S.V n).at (coord p))
          (fun n => (S.C n).at (coord p)) (fun n => (S.x n).at (coord p)) (S.ldet.at (coord p))) ∧
    ((∃ p ∈ indices pX, ¬ (blockTridiagonal (M + 1) (plateBlock D A p) (plateBlock D B p)).PosDef) →
      blockBandedSolveArr A B y = .error .exception) := by
  have eA : ∀ n, (timeBlock D A n).shape = pA := fun n => by simp [timeBlock, hA]
  have eB : ∀ n, (timeBlock D B n).shape = pB := fun n => by simp [timeBlock, hB]
  have ey : ∀ n, (timeVector D y n).shape = pY := fun n => by simp [timeVector, hy]
  have hbt : ∀ p, blockTridiagonal (M + 1) (fun k => (timeBlock D A k).at (coord p)) (fun k => (timeBlock D B k).at (coord p)) =
      blockTridiagonal (M + 1) (plateBlock D A p) (plateBlock D B p) := fun p =>
    blockTridiagonal_congr (fun n hn => timeBlock_at hA hn p) fun n hn => timeBlock_at hB (by omega) p
  have hrun := solve_run hA hB hy
  obtain ⟨h1, h2⟩ := bandPlates_sim M eA eB ey hV hX hpos hall hlen
  have hsy : ∀ p ∈ indices pX, ∀ k ≤ M, ((timeBlock D A k).at (coord p)).IsSymm := fun p hp k hk => by
    rw [timeBlock_at hA (by omega) p]; exact hsymm p hp k hk
  constructor
  · intro hpd
    obtain ⟨S, g1, g2, g3⟩ := h1 fun c hc => by
      obtain ⟨p, hp, rfl⟩ := exists_index_of_valid hc
      exact (C54_succeeds_iff_posDef M _ _ _ (hsy p hp)).1.2 ((hbt p).symm ▸ hpd p hp)
    refine ⟨S, by rw [hrun, g1]; rfl, g2.V, g2.C, g2.x, g2.ldet, fun p hp => ?_⟩
    have hs := g3 _ (coord_valid hp)
    have r1 := C29_solves_partial (M + 1) (M + 1) M _ _ _ (fun k hk => hsy p hp k (by omega)) _ hs
    obtain ⟨r2, r3, -, r4⟩ := C30_inverse_blocks_and_logdet M _ _ _ (hsy p hp) _ hs
    rw [hbt p] at r1 r2 r3 r4
    have hyv : blockVector (M + 1) (fun k => (timeVector D y k).at (coord p)) = blockVector (M + 1) (plateVector D y p) := by
      funext q
      exact congrFun (timeVector_at hy q.1.2 p) q.2
    rw [hyv] at r1
    exact ⟨r1, r2, r3, r4⟩
  · rintro ⟨p, hp, hn⟩
    rw [hrun, h2 ⟨coord p, coord_valid hp, fun t ht => hn ?_⟩]
    · rfl
    · rw [← hbt p]
      exact (C54_succeeds_iff_posDef M _ _ _ (hsy p hp)).1.1 ⟨t, ht⟩

/-! ## Super-diagonal blocks without plates -/

theorem posDef_isSymm {X : Matrix (Fin D) (Fin D) ℝ} (h : X.PosDef) : X.IsSymm := by
  have := h.isHermitian
  rwa [Matrix.IsHermitian, Matrix.conjTranspose_eq_transpose_of_trivial] at this

/-- **C85** (what the code does) Two time instances, diagonal blocks on `K + 1` plates, one super-diagonal block that all plates
share: the Schur complement on every plate is computed with the first diagonal block of the *last* plate. -/
theorem C85_shared_offdiagonal {A B y : Arr ℝ} {K : Nat} {pY : List Nat} (hA : A.shape = [K + 1, 2, D, D]) (hB : B.shape = [1, D, D])
    (hy : y.shape = pY ++ [2, D]) (hpY : BroadcastsTo pY [K + 1]) (hs0 : ∀ p ≤ K, (plateBlock D A [p] 0).PosDef)
    (hs1 : ∀ p ≤ K, (plateBlock D A [p] 1 - (plateBlock D B [] 0)ᵀ * ((plateBlock D A [K] 0)⁻¹ * plateBlock D B [] 0)).PosDef) :
    ∃ S, blockBandedSolveArr A B y = .ok ⟨D, S⟩ ∧ ∀ p ≤ K, S.ldet.at (coord [p]) = Real.log (plateBlock D A [p] 0).det +
      Real.log (plateBlock D A [p] 1 - (plateBlock D B [] 0)ᵀ * ((plateBlock D A [K] 0)⁻¹ * plateBlock D B [] 0)).det := by
  have hA' : A.shape = [K + 1] ++ [1 + 1, D, D] := hA
  have hB' : B.shape = [] ++ [1, D, D] := hB
  have hy' : y.shape = pY ++ [1 + 1, D] := hy
  have r0 := BroadcastsTo_refl [K + 1]
  have e0 : BroadcastsTo [] [K + 1] := ⟨by simp, fun k => .inl (by simp [axisLen])⟩
  have eA : ∀ n, (timeBlock D A n).shape = [K + 1] := fun n => by simp [timeBlock, hA]
  have eB : ∀ n, (timeBlock D B n).shape = [] := fun n => by simp [timeBlock, hB]
  have ey : ∀ n, (timeVector D y n).shape = pY := fun n => by simp [timeVector, hy]
  have hval : ∀ c, ValidIn [K + 1] c → ∃ p ≤ K, c = coord [p] := fun c hc => by
    refine ⟨c 0, by have := hc 0; simp [axisLen] at this; omega, ?_⟩
    funext k
    cases k with
    | zero => rfl
    | succ k => have := hc (k + 1); simp [axisLen] at this; simp [coord, this]
  have hvc : ∀ p ≤ K, ValidIn [K + 1] (coord [p]) := fun p hp => coord_valid (by simp [indices]; omega)
  have hB0 : ∀ c, (timeBlock D B 0).at c = plateBlock D B [] 0 := fun c => by
    rw [← timeBlock_at hB' (by omega) []]
    unfold Arr.at
    rw [eB 0]
    congr 1
  obtain ⟨x0, a1, a2, a3, -⟩ := fill_ok (v := timeVector D y 0) (shape_to (ey 0) hpY)
  have hc0 : ∀ c, ValidIn [K + 1] c → ∃ U, chol ((timeBlock D A 0).get c) = .ok U := fun c hc => by
    obtain ⟨p, hp, rfl⟩ := hval c hc
    rw [← at_of_shape (eA 0) hc, timeBlock_at hA' (by omega)]
    rcases chol_spec (posDef_isSymm (hs0 p hp)) with ⟨_, U, hU, _⟩ | ⟨h, _⟩
    · exact ⟨U, hU⟩
    · exact absurd (hs0 p hp) h
  obtain ⟨R, r1, r2, r3⟩ := cholPlates_ok (eA 0) hc0
  have hR : ∀ p ≤ K, IsChol (plateBlock D A [p] 0) (R.get (coord [p])) := fun p hp => by
    have h := r3 _ (hvc p hp)
    rw [← at_of_shape (eA 0) (hvc p hp), timeBlock_at hA' (by omega)] at h
    rcases chol_spec (posDef_isSymm (hs0 p hp)) with ⟨_, U, hU, hI⟩ | ⟨h', _⟩
    · rw [h] at hU; injection hU with hU; exact hU ▸ hI
    · exact absurd (hs0 p hp) h'
  obtain ⟨v, v1, v2, v3, v4⟩ := fill_ok (shape_to r2 r0)
  have hv : ∀ p ≤ K, v.at (coord [p]) = R.get (coord [p]) := fun p hp => by rw [v3, at_of_shape r2 (hvc p hp)]
  set S0 : PlateBand D := ⟨Function.update (fun _ => ⟨[K + 1], fun _ => 0⟩) 0 v, fun _ => ⟨[K + 1], fun _ => 0⟩,
    Function.update (fun _ => ⟨[K + 1], fun _ => 0⟩) 0 x0, v.map cholLogdet⟩ with hS0
  have hsh : S0.Shaped [K + 1] [K + 1] := by
    refine ⟨update_shape (fun _ => rfl) _ v2, fun m c c' h => ?_, fun _ => rfl, update_shape (fun _ => rfl) _ a2, v2⟩
    by_cases e : m = 0
    · subst e; simp only [hS0, Function.update_self]; exact v4 c c' h
    · simp only [hS0, Function.update_of_ne e]
  obtain ⟨G, G1, G2, G3⟩ := cholSolveMat_shared (hsh.V 0) (hsh.get 0) (eB 0)
  have hlast : (S0.V 0).get (fun _ => K) = R.get (coord [K]) := by
    rw [← hv K le_rfl, at_of_shape v2 (hvc K le_rfl)]
    have e : S0.V 0 = v := by simp only [hS0, Function.update_self]
    rw [e]
    exact v4 _ _ fun k hk => by obtain rfl : k = 0 := by simpa using hk
                                rfl
  obtain ⟨z, cc, w, z1, c1, w1, z2, c2, w2, he⟩ := plateForward_gen (A := timeBlock D A) (y := timeVector D y) r0
    (fun n => shape_to (eA n) r0) (fun n => shape_to (eB n) e0) (fun n => shape_to (ey n) hpY) S0 hsh 0
    ⟨G, G1, G2, G3⟩
  have hw : ∀ p ≤ K, w.at (coord [p]) = plateBlock D A [p] 1 -
      (plateBlock D B [] 0)ᵀ * ((plateBlock D A [K] 0)⁻¹ * plateBlock D B [] 0) := fun p hp => by
    rw [w2 _ (hvc p hp), hlast, hB0, (hR K le_rfl).solveM, timeBlock_at hA' (by omega)]
    exact half_smul_symm (posDef_isSymm (hs1 p hp))
  have hcw : ∀ c, ValidIn [K + 1] c → ∃ U, chol (w.get c) = .ok U := fun c hc => by
    obtain ⟨p, hp, rfl⟩ := hval c hc
    rw [← at_of_shape w1 hc, hw p hp]
    rcases chol_spec (posDef_isSymm (hs1 p hp)) with ⟨_, U, hU, _⟩ | ⟨h, _⟩
    · exact ⟨U, hU⟩
    · exact absurd (hs1 p hp) h
  obtain ⟨Q, q1, q2, q3⟩ := cholPlates_ok w1 hcw
  have hQ : ∀ p ≤ K, IsChol (plateBlock D A [p] 1 - (plateBlock D B [] 0)ᵀ * ((plateBlock D A [K] 0)⁻¹ * plateBlock D B [] 0))
      (Q.get (coord [p])) := fun p hp => by
    have h := q3 _ (hvc p hp)
    rw [← at_of_shape w1 (hvc p hp), hw p hp] at h
    rcases chol_spec (posDef_isSymm (hs1 p hp)) with ⟨_, U, hU, hI⟩ | ⟨h', _⟩
    · rw [h] at hU; injection hU with hU; exact hU ▸ hI
    · exact absurd (hs1 p hp) h'
  obtain ⟨u, u1, u2, u3, u4⟩ := fill_ok (shape_to q2 r0)
  obtain ⟨l, l1, l2, l3⟩ := map2_left (fun a b => a + b) hsh.ldet (Y := u.map cholLogdet) (shape_to (P := [K + 1]) u2 r0)
  obtain ⟨l', m1, m2, m3, -⟩ := fill_ok (P := S0.ldet.shape) (v := l) (by rw [hsh.ldet, l2]; exact r0)
  set S1 : PlateBand D := ⟨Function.update S0.V (0 + 1) u, Function.update S0.C 0 cc, Function.update S0.x (0 + 1) z, l'⟩ with hS1
  have hfwd : plateForward [K + 1] [K + 1] (timeBlock D A) (timeBlock D B) (timeVector D y) S0 0 = .ok S1 := by
    rw [he, q1]
    simp only [Except.bind, u1, l1, m1, hS1]
  have g2 : S1.Shaped [K + 1] [K + 1] := by
    refine ⟨update_shape hsh.V _ u2, fun m c c' h => ?_, update_shape hsh.C _ c1, update_shape hsh.x _ z1, m2.trans hsh.ldet⟩
    by_cases e : m = 0 + 1
    · subst e; simp only [hS1, Function.update_self]; exact u4 c c' h
    · simp only [hS1, Function.update_of_ne e]; exact hsh.get m c c' h
  obtain ⟨t, b1, b2, b3⟩ := cholSolveVec_ok (g2.V 1) (g2.get 1) (g2.x 1) r0
  obtain ⟨t', d1, d2, d3, -⟩ := fill_ok (shape_to b2 r0)
  obtain ⟨i1, -⟩ := cholInv_ok (g2.V 1) r0
  obtain ⟨w', f1, f2, f3, f4⟩ := fill_ok (v := cholInvPlates cholSolveM (S1.V 1) 1) (shape_to i1 r0)
  have hB2 : ∀ n, BroadcastsTo (timeBlock D B n).shape [K + 1] := fun n => shape_to (eB n) e0
  obtain ⟨S3, k1, k2, k3⟩ := plateBackward_ok r0 hB2
    ⟨Function.update S1.V 1 w', S1.C, Function.update S1.x 1 t', S1.ldet⟩ (by
      refine ⟨update_shape g2.V _ f2, fun m c c' h => ?_, g2.C, update_shape g2.x _ d2, g2.ldet⟩
      by_cases e : m = 1
      · subst e; simp only [Function.update_self]; exact f4 c c' h
      · simp only [Function.update_of_ne e]; exact g2.get m c c' h) 0
  have hV : IsBroadcast [[K + 1], []] [K + 1] := isBroadcast_swap (isBroadcast_of_to e0)
  have hX : IsBroadcast [[K + 1], pY] [K + 1] := isBroadcast_swap (isBroadcast_of_to hpY)
  refine ⟨S3, ?_, fun p hp => ?_⟩
  · rw [solve_run hA' hB' hy']
    unfold bandPlates
    simp only [(broadcastedShape_ok _ _).2 hV, (broadcastedShape_ok _ _).2 hX, a1, r1, v1, ← hS0, Nat.add_sub_cancel, bind, Except.bind,
      List.range_one, List.foldlM_cons, List.foldlM_nil, hfwd, pure, Except.pure, b1, d1, f1, List.reverse_singleton, k1]
  · have h := congrArg BandState.ldet (k3 _ (hvc p hp))
    rw [bandBackward_eq] at h
    refine h.trans ?_
    show l'.at (coord [p]) = _
    rw [m3, l3, show (u.map cholLogdet).at (coord [p]) = cholLogdet (u.at (coord [p])) from rfl, u3, at_of_shape q2 (hvc p hp), (hQ p hp).logdet]
    congr 1
    show (v.map cholLogdet).at _ = _
    rw [map_at', hv p hp, (hR p hp).logdet]

/-! ### A model with one number per block -/

def one (a : ℝ) : Matrix (Fin 1) (Fin 1) ℝ := diagonal fun _ => a

theorem one_posDef {a : ℝ} (h : 0 < a) : (one a).PosDef := PosDef.diagonal fun _ => h

theorem one_det (a : ℝ) : (one a).det = a := by simp [one]

theorem one_schur {a b w : ℝ} (h : w ≠ 0) : one a - (one b)ᵀ * ((one w)⁻¹ * one b) = one (a - b * (w⁻¹ * b)) := by
  have : (one w)⁻¹ = one w⁻¹ := by
    refine inv_eq_right_inv ?_
    ext i j; fin_cases i; fin_cases j; simp [one, h]
  rw [this]
  ext i j; fin_cases i; fin_cases j; simp [one]

theorem one_symm (a : ℝ) : (one a).IsSymm := by simp [one, IsSymm]

/-- Two plates, two time instances: the first diagonal block is `1` on the first plate and `2` on the second one, the other
diagonal blocks are `4`. -/
def sharedA : Arr ℝ := ⟨[2, 2, 1, 1], fun c => if c 2 = 0 then (if c 3 = 0 then 1 else 2) else 4⟩
/-- One super-diagonal block for both plates -/
def sharedB : Arr ℝ := ⟨[1, 1, 1], fun _ => 1⟩

theorem sharedA_block (p n : Nat) (hp : p < 2) (hn : n < 2) :
    plateBlock 1 sharedA [p] n = one (if n = 0 then (if p = 0 then 1 else 2) else 4) := by
  ext i j; fin_cases i; fin_cases j
  interval_cases p <;> interval_cases n <;> simp [plateBlock, sharedA, Arr.at, restrict, axisLen, coord, one]

theorem sharedB_block (p : List Nat) : plateBlock 1 sharedB p 0 = one 1 := by
  ext i j; fin_cases i; fin_cases j; simp [plateBlock, sharedB, Arr.at, one]

/-- **C85** (finding) The matrices of both plates are symmetric and positive definite, the function succeeds, and the log determinant
of the first plate is wrong: `log (7/2)` instead of `log 3`, because the first block of the second plate is used in place of its
own. -/
theorem C85_shared_offdiagonal_refuted :
    (∀ p < 2, (∀ n ≤ 1, (plateBlock 1 sharedA [p] n).IsSymm) ∧
      (blockTridiagonal 2 (plateBlock 1 sharedA [p]) (plateBlock 1 sharedB [p])).PosDef) ∧
    (blockTridiagonal 2 (plateBlock 1 sharedA [0]) (plateBlock 1 sharedB [0])).det = 3 ∧
    ∃ S, blockBandedSolveArr sharedA sharedB ⟨[2, 1], fun _ => 0⟩ = .ok ⟨1, S⟩ ∧ S.ldet.at (coord [0]) = Real.log (7 / 2) := by
  have hs : ∀ p < 2, ∀ n ≤ 1, (plateBlock 1 sharedA [p] n).IsSymm := fun p hp n hn => by
    rw [sharedA_block p n hp (by omega)]; exact one_symm _
  have h0 : ∀ p < 2, pivot (plateBlock 1 sharedA [p]) (plateBlock 1 sharedB [p]) 0 = one (if p = 0 then 1 else 2) := fun p hp =>
    sharedA_block p 0 hp (by omega)
  have h1 : ∀ p < 2, pivot (plateBlock 1 sharedA [p]) (plateBlock 1 sharedB [p]) 1 =
      one (4 - 1 * ((if p = 0 then 1 else 2 : ℝ)⁻¹ * 1)) := fun p hp => by
    show plateBlock 1 sharedA [p] 1 - (plateBlock 1 sharedB [p] 0)ᵀ * ((pivot _ _ 0)⁻¹ * plateBlock 1 sharedB [p] 0) = _
    rw [h0 p hp, sharedA_block p 1 hp (by omega), sharedB_block, one_schur (by split <;> norm_num)]
    simp
  refine ⟨fun p hp => ⟨hs p hp, (posDef_blockTridiagonal 1 _ _ (hs p hp)).2 fun n hn => ?_⟩, ?_, ?_⟩
  · interval_cases n
    · rw [h0 p hp]; exact one_posDef (by split <;> norm_num)
    · rw [h1 p hp]; exact one_posDef (by split <;> norm_num)
  · rw [det_blockTridiagonal 1 _ _ (hs 0 (by omega)) fun k hk => by
      obtain rfl : k = 0 := by omega
      rw [h0 0 (by omega), one_det]; simp, Fin.prod_univ_two]
    show (pivot _ _ 0).det * (pivot _ _ 1).det = 3
    rw [h0 0 (by omega), h1 0 (by omega), one_det, one_det]
    norm_num
  · have e : ∀ p ≤ 1, plateBlock 1 sharedA [p] 1 - (plateBlock 1 sharedB [] 0)ᵀ * ((plateBlock 1 sharedA [1] 0)⁻¹ *
        plateBlock 1 sharedB [] 0) = one (7 / 2) := fun p hp => by
      rw [sharedA_block p 1 (by omega) (by omega), sharedB_block, sharedA_block 1 0 (by omega) (by omega),
        one_schur (by norm_num)]
      norm_num
    obtain ⟨S, g1, g2⟩ := C85_shared_offdiagonal (D := 1) (A := sharedA) (B := sharedB) (y := ⟨[2, 1], fun _ => 0⟩) (K := 1)
      (pY := []) rfl rfl rfl ⟨by simp, fun k => .inl (by simp [axisLen])⟩
      (fun p hp => by rw [sharedA_block p 0 (by omega) (by omega)]; exact one_posDef (by simp; split <;> norm_num))
      (fun p hp => by rw [e p hp]; exact one_posDef (by norm_num))
    refine ⟨S, g1, ?_⟩
    rw [g2 0 (by omega), e 0 (by omega), sharedA_block 0 0 (by omega) (by omega), one_det, one_det]
    simp

/-- The same model with the super-diagonal block repeated on both plates meets the hypotheses of `C85_plates_partial`. -/
example : ∃ S, blockBandedSolveArr sharedA ⟨[2, 1, 1, 1], fun _ => 1⟩ ⟨[2, 1], fun c => c 1⟩ = .ok ⟨1, S⟩ ∧
    S.ldet.at (coord [0]) = Real.log 3 := by
  have hb : ∀ p < 2, plateBlock 1 ⟨[2, 1, 1, 1], fun _ => 1⟩ [p] = plateBlock 1 sharedB [p] := fun p _ => by
    funext n; ext i j; simp [plateBlock, sharedB, Arr.at]
  have hr := C85_shared_offdiagonal_refuted
  have hp : ∀ p ∈ indices [2], ∃ k < 2, p = [k] := fun p hp => by
    simp [indices] at hp
    obtain ⟨k, hk, rfl⟩ := hp
    exact ⟨k, by omega, rfl⟩
  obtain ⟨S, h1, -, -, -, -, h⟩ := (C85_plates_partial (D := 1) (A := sharedA) (B := ⟨[2, 1, 1, 1], fun _ => 1⟩)
    (y := ⟨[2, 1], fun c => c 1⟩) (pA := [2]) (pB := [2]) (pY := []) (pV := [2]) (pX := [2]) (M := 1) rfl rfl rfl
    (isBroadcast_of_to (BroadcastsTo_refl _)) (isBroadcast_swap (isBroadcast_of_to ⟨by simp, fun k => .inl (by simp [axisLen])⟩))
    (fun k => by rcases k with _ | k <;> simp [axisLen]) (fun k => .inr rfl) (by simp)
    (fun p h n hn => by obtain ⟨k, hk, rfl⟩ := hp p h; exact (hr.1 k hk).1 n hn)).1 fun p h => by
      obtain ⟨k, hk, rfl⟩ := hp p h
      rw [hb k hk]; exact (hr.1 k hk).2
  refine ⟨S, h1, ?_⟩
  have := (h [0] (by simp [indices])).ldet
  rw [hb 0 (by omega)] at this
  rw [this]
  exact congrArg Real.log hr.2.1

/-! ## Moments -/

/-- **C85** The moments of a Gaussian Markov chain on arrays with plates: on every plate the mean and the second moments of the
Gaussian with precision matrix `T` (diagonal blocks `-2 φ₁`, super-diagonal blocks `-φ₂`) and linear term `φ₀`.  Partial: as
`C85_plates_partial`, `φ₂` must have every plate of `φ₁`. -/
theorem C85_moments_partial {phi0 phi1 phi2 : Arr ℝ} {p0 p1 p2 pV pX : List Nat} {M : Nat} (h1 : phi1.shape = p1 ++ [M + 1, D, D])
    (h2 : phi2.shape = p2 ++ [M, D, D]) (h0 : phi0.shape = p0 ++ [M + 1, D]) (hV : IsBroadcast [p1, p2] pV)
    (hX : IsBroadcast [pV, p0] pX) (hpos : ∀ k, 0 < axisLen pX k) (hall : ∀ k, axisLen p1 k = 1 ∨ axisLen p2 k = axisLen p1 k)
    (hlen : p1.length ≤ p2.length + 1) (hsymm : ∀ p ∈ indices pX, ∀ n ≤ M, (plateBlock D phi1 p n).IsSymm)
    (hpd : ∀ p ∈ indices pX, (blockTridiagonal (M + 1) (fun n => (-2 : ℝ) • plateBlock D phi1 p n)
      fun n => -plateBlock D phi2 p n).PosDef) :
    ∃ u, chainMomentsArr phi0 phi1 phi2 = .ok ⟨D, u⟩ ∧ (∀ n, (u.u0 n).shape = pX) ∧ (∀ n, (u.u1 n).shape = pX) ∧
      (∀ n, (u.u2 n).shape = pX) ∧ u.g.shape = pX ∧
      ∀ p ∈ indices pX, ChainMean M (blockTridiagonal (M + 1) (fun n => (-2 : ℝ) • plateBlock D phi1 p n)
        fun n => -plateBlock D phi2 p n) (blockVector (M + 1) (plateVector D phi0 p)) (fun n => (u.u0 n).at (coord p))
        (fun n => (u.u1 n).at (coord p)) (fun n => (u.u2 n).at (coord p)) (u.g.at (coord p)) := by
  have k1 : ∀ p, plateBlock D (phi1.map fun a => -2 * a) p = fun n => (-2 : ℝ) • plateBlock D phi1 p n := fun p => rfl
  have k2 : ∀ p, plateBlock D (phi2.map fun a => -a) p = fun n => -plateBlock D phi2 p n := fun p => rfl
  obtain ⟨S, e, sV, sC, sx, sl, hS⟩ := (C85_plates_partial (A := phi1.map fun a => -2 * a) (B := phi2.map fun a => -a) (y := phi0)
    h1 h2 h0 hV hX hpos hall hlen fun p hp n hn => by rw [k1]; exact (hsymm p hp n hn).smul _).1 fun p hp => by
      rw [k1, k2]; exact hpd p hp
  have hVX : BroadcastsTo pV pX := Verif.IsBroadcast.to hX (by simp)
  have h0X : BroadcastsTo p0 pX := Verif.IsBroadcast.to hX (by simp)
  have b1 : broadcastedShape [(S.V 0).shape, (S.x 0).shape] = .ok pX := by
    rw [sV, sx]; exact (broadcastedShape_ok _ _).2 (isBroadcast_of_to hVX)
  have b2 : broadcastedShape [(S.C 0).shape, (S.x 0).shape] = .ok pX := by
    rw [sC, sx]; exact (broadcastedShape_ok _ _).2 (isBroadcast_of_to hVX)
  have b3 : broadcastedShape [(S.x 0).shape, phi0.shape.take (phi0.shape.length - 2)] = .ok pX := by
    rw [sx, h0]; simp only [List.length_append, List.length_cons, List.length_nil, Nat.add_sub_cancel, List.take_left']
    exact (broadcastedShape_ok _ _).2 (isBroadcast_swap (isBroadcast_of_to h0X))
  have hN : axisLen phi0.shape 1 = M + 1 := by rw [h0]; simp [axisLen]
  set xy : Arr ℝ := ⟨pX, fun c => ∑ n ∈ Finset.range (M + 1), ∑ d, (S.x n).at c d * (timeVector D phi0 n).at c d⟩ with hxy
  obtain ⟨g, g1, g2, g3⟩ := map2_left (fun a b => a + b) (X := xy.map fun a => -0.5 * a) (P := pX) rfl
    (Y := S.ldet.map fun l => 0.5 * l) (by show BroadcastsTo S.ldet.shape pX; rw [sl]; exact hVX)
  have hrun : chainMomentsArr phi0 phi1 phi2 = .ok ⟨D, ⟨S.x,
      fun n => ⟨pX, fun c => (S.V n).at c + vecMulVec ((S.x n).at c) ((S.x n).at c)⟩,
      fun n => ⟨pX, fun c => (S.C n).at c + vecMulVec ((S.x n).at c) ((S.x (n + 1)).at c)⟩, g⟩⟩ := by
    unfold chainMomentsArr
    simp only [e, bind, Except.bind, b1, b2, b3, hN, ← hxy, g1, pure, Except.pure]
  refine ⟨_, hrun, sx, fun _ => rfl, fun _ => rfl, g2, fun p hp => ?_⟩
  have hc := coord_valid hp
  obtain ⟨r1, r2, r3, r4⟩ := hS p hp
  rw [k1, k2] at r1 r2 r3 r4
  have hu : IsUnit (blockTridiagonal (M + 1) (fun n => (-2 : ℝ) • plateBlock D phi1 p n) fun n => -plateBlock D phi2 p n).det :=
    (hpd p hp).det_pos.ne'.isUnit
  set T := blockTridiagonal (M + 1) (fun n => (-2 : ℝ) • plateBlock D phi1 p n) fun n => -plateBlock D phi2 p n with hT
  set b := blockVector (M + 1) (plateVector D phi0 p) with hb
  have hx : blockVector (M + 1) (fun n => (S.x n).at (coord p)) = T⁻¹ *ᵥ b := by
    rw [← r1, mulVec_mulVec, nonsing_inv_mul _ hu, one_mulVec]
  have hx' : ∀ (n : Fin (M + 1)) d, (S.x n).at (coord p) d = (T⁻¹ *ᵥ b) (n, d) := fun n d => congrFun hx (n, d)
  have hx2 : ∀ (n : Fin M) d, (S.x (n + 1)).at (coord p) d = (T⁻¹ *ᵥ b) (n.succ, d) := fun n d => hx' n.succ d
  refine ⟨hx', fun n d k => ?_, fun n d k => ?_, ?_⟩
  · rw [at_of_shape rfl hc]
    show (S.V n).at (coord p) d k + (S.x n).at (coord p) d * (S.x n).at (coord p) k = _
    rw [hx', hx', r2 n]
    rfl
  · rw [at_of_shape rfl hc]
    show (S.C n).at (coord p) d k + (S.x n).at (coord p) d * (S.x (n + 1)).at (coord p) k = _
    rw [hx2, r3 n, show (S.x n).at (coord p) d = _ from hx' n.castSucc d]
    rfl
  · show g.at (coord p) = _
    rw [g3]
    show -0.5 * xy.at (coord p) + 0.5 * S.ldet.at (coord p) = _
    rw [r4, at_of_shape rfl hc]
    have : xy.get (coord p) = b ⬝ᵥ (T⁻¹ *ᵥ b) := by
      show ∑ n ∈ Finset.range (M + 1), ∑ d, (S.x n).at (coord p) d * (timeVector D phi0 n).at (coord p) d = _
      rw [← Fin.sum_univ_eq_sum_range (fun n => ∑ d, (S.x n).at (coord p) d * (timeVector D phi0 n).at (coord p) d), dotProduct,
        Fintype.sum_prod_type]
      refine Finset.sum_congr rfl fun n _ => Finset.sum_congr rfl fun d _ => ?_
      rw [hx', timeVector_at h0 n.2, mul_comm]
      rfl
    rw [this]
    norm_num

/-- A chain of two states on two plates, with observations of different precisions on the plates, meets the hypotheses. -/
example : ∃ u, chainMomentsArr ⟨[2, 1], fun c => c 1⟩ (sharedA.map fun a => -(1 / 2) * a) ⟨[2, 1, 1, 1], fun _ => -1⟩ = .ok ⟨1, u⟩ := by
  have hr := C85_shared_offdiagonal_refuted
  have hp : ∀ p ∈ indices [2], ∃ k < 2, p = [k] := fun p hp => by
    simp [indices] at hp
    obtain ⟨k, hk, rfl⟩ := hp
    exact ⟨k, by omega, rfl⟩
  have ha : ∀ p n, plateBlock 1 (sharedA.map fun a => -(1 / 2) * a) p n = (-(1 / 2) : ℝ) • plateBlock 1 sharedA p n := fun p n => rfl
  have hb : ∀ p : List Nat, (fun n => -plateBlock 1 ⟨[2, 1, 1, 1], fun _ => -1⟩ p n) = plateBlock 1 sharedB p := fun p => by
    funext n; ext i j; simp [plateBlock, sharedB, Arr.at]
  obtain ⟨u, h, -⟩ := C85_moments_partial (D := 1) (phi0 := ⟨[2, 1], fun c => c 1⟩) (phi1 := sharedA.map fun a => -(1 / 2) * a)
    (phi2 := ⟨[2, 1, 1, 1], fun _ => -1⟩) (p1 := [2]) (p2 := [2]) (p0 := []) (pV := [2]) (pX := [2]) (M := 1) rfl rfl rfl
    (isBroadcast_of_to (BroadcastsTo_refl _)) (isBroadcast_swap (isBroadcast_of_to ⟨by simp, fun k => .inl (by simp [axisLen])⟩))
    (fun k => by rcases k with _ | k <;> simp [axisLen]) (fun k => .inr rfl) (by simp)
    (fun p h n hn => by obtain ⟨k, hk, rfl⟩ := hp p h; rw [ha]; exact ((hr.1 k hk).1 n hn).smul _) fun p h => by
      obtain ⟨k, hk, rfl⟩ := hp p h
      rw [hb]
      simp only [ha, smul_smul]
      norm_num
      exact (hr.1 k hk).2
  exact ⟨u, h⟩

/-! ## Wrong shapes -/

/-- **C85** Arrays whose numbers of time instances or dimensions do not fit together are refused. -/
theorem C85_wrong_shape {A B y : Arr ℝ} (hA : 3 ≤ A.shape.length) (hB : 3 ≤ B.shape.length) (hy : 2 ≤ y.shape.length)
    (h : ¬ (axisLen A.shape 2 = axisLen y.shape 1 ∧ axisLen A.shape 1 = axisLen y.shape 0 ∧ axisLen A.shape 0 = axisLen y.shape 0 ∧
      axisLen B.shape 2 + 1 = axisLen y.shape 1 ∧ axisLen B.shape 1 = axisLen y.shape 0 ∧ axisLen B.shape 0 = axisLen y.shape 0)) :
    blockBandedSolveArr A B y = .error .valueError := by
  unfold blockBandedSolveArr
  simp only [show ¬ y.shape.length < 2 by omega, show ¬ A.shape.length < 3 by omega, show ¬ B.shape.length < 3 by omega, if_false]
  by_cases a : axisLen A.shape 2 = axisLen y.shape 1
  · by_cases b : axisLen A.shape 1 = axisLen y.shape 0 ∧ axisLen A.shape 0 = axisLen y.shape 0
    · by_cases c : axisLen B.shape 2 + 1 = axisLen y.shape 1
      · by_cases d : axisLen B.shape 1 = axisLen y.shape 0 ∧ axisLen B.shape 0 = axisLen y.shape 0
        · exact absurd ⟨a, b.1, b.2, c, d.1, d.2⟩ h
        · simp only [ne_eq, a, b.1, b.2, c, not_true_eq_false, if_false, or_self]
          rw [if_pos (by tauto)]
          rfl
      · simp only [ne_eq, a, b.1, b.2, c, not_true_eq_false, not_false_eq_true, if_false, if_true, or_self]
        rfl
    · simp only [ne_eq, a, not_true_eq_false, if_false]
      rw [if_pos (by tauto)]
      rfl
  · simp only [ne_eq, a, not_false_eq_true, if_true]
    rfl

/-- Three time instances in `y`, two in `A`. -/
example : blockBandedSolveArr sharedA sharedB ⟨[3, 1], fun _ => 0⟩ = .error .valueError :=
  C85_wrong_shape (by decide) (by decide) (by decide) (by simp [sharedA, axisLen])

end Verif
