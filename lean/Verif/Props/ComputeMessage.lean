import Verif.Model.ComputeMessage
import Verif.Props.SumMultiplyParents

/-!
# C56: `Node._compute_message` sums the product of the arrays to the requested plates
-/

namespace Verif
open Spec Function Sum

attribute [-instance] Sum.instBEq

section
variable {α : Type} [CommSemiring α]

omit [CommSemiring α] in
theorem axisLen_padLeading (n : Nat) (X : Arr α) (k : Nat) :
    axisLen (padLeading n X).shape k = axisLen X.shape k := by
  simp only [padLeading, axisLen_append]
  split
  · rfl
  · rename_i h
    rw [axisLen_of_ge (s := X.shape) (by omega)]
    by_cases h' : k - X.shape.length < n - X.shape.length
    · have := axisLen_eq_getElem (r := List.replicate (n - X.shape.length) 1)
        (j := (n - X.shape.length) - 1 - (k - X.shape.length)) (by simp; omega)
      simp only [List.length_replicate, List.getElem_replicate] at this
      rwa [show (n - X.shape.length) - 1 - ((n - X.shape.length) - 1 - (k - X.shape.length))
        = k - X.shape.length by omega] at this
    · exact axisLen_of_ge (by simp; omega)

omit [CommSemiring α] in
theorem at_padLeading (n : Nat) (X : Arr α) (c : Nat → Nat) : (padLeading n X).at c = X.at c := by
  show X.get (restrict _ c) = X.get (restrict _ c)
  congr 1
  funext k
  unfold restrict
  rw [axisLen_padLeading]

theorem filter_range_lt (n m : Nat) (p : Nat → Bool) :
    (List.range n).filter (fun k => decide (k < m) && p k) = (List.range (min m n)).filter p := by
  induction n with
  | zero => simp
  | succ n ih =>
    rw [List.range_succ, List.filter_append, ih]
    by_cases h : n < m
    · rw [show min m n = n by omega, show min m (n + 1) = n + 1 by omega, List.range_succ, List.filter_append]
      congr 1
      simp only [List.filter_cons, List.filter_nil, h, decide_true, Bool.true_and]
    · rw [show min m n = m by omega, show min m (n + 1) = m by omega]
      simp [h]

/-- The entries of a list of named axes. -/
theorem zip_axis {ν : Type} {names : List ν} {a : ν → Nat} {s t : List Nat} (hs : s.length = names.length)
    (ht : names.map a = t) {l : ν} {d : Nat} (h : (l, d) ∈ names.zip s) :
    ∃ i, ∃ hi : i < names.length, l = names[names.length - 1 - i]'(by omega) ∧ d = axisLen s i ∧
      a l = axisLen t i := by
  obtain ⟨j, hj, he⟩ := List.mem_iff_getElem.1 h
  rw [List.length_zip] at hj
  rw [List.getElem_zip] at he
  have hjn : j < names.length := by omega
  have e1 := congrArg Prod.fst he
  have e2 := congrArg Prod.snd he
  simp only at e1 e2
  refine ⟨names.length - 1 - j, by omega, ?_, ?_, ?_⟩
  · rw [← e1]
    congr 1
    omega
  · rw [← e2, ← axisLen_eq_getElem (r := s) (j := j) (by omega), hs]
  · rw [← ht, axisLen_map_len _ _ _ (by omega), ← e1]
    congr 2
    omega

theorem mem_zip_axis {ν : Type} {names : List ν} {s : List Nat} (hs : s.length = names.length)
    {i : Nat} (hi : i < names.length) : (names[names.length - 1 - i]'(by omega), axisLen s i) ∈ names.zip s := by
  rw [List.mem_iff_getElem]
  refine ⟨names.length - 1 - i, by simp; omega, ?_⟩
  rw [List.getElem_zip]
  congr 1
  have := axisLen_eq_getElem (r := s) (j := names.length - 1 - i) (by omega)
  rw [← this]
  congr 1
  omega

/-- **C56.**  For all arrays whose shapes broadcast to plates `A` and variable axes `D`, all plates `F` of the
node and `T` of the parent (no axis of length zero) with `A` and `T` broadcasting to `F`: the message pairs with
any moments `U` of the parent as the product of the arrays, broadcast to all plates of the node, pairs with `U`. -/
theorem C56_compute_message (arrays : List (Arr α)) (hne : arrays ≠ []) (A D F T : List Nat)
    (hb : IsBroadcast (arrays.map (·.shape)) (A ++ D)) (hA : BroadcastsTo A F) (hT : BroadcastsTo T F)
    (hpos : ∀ k, axisLen F k ≠ 0) :
    ∃ msg Q, computeMessage arrays F T D.length = .ok msg ∧ msg.shape = Q ++ D ∧ BroadcastsTo Q T ∧
      ∀ U : Arr α, BroadcastsTo U.shape (T ++ D) →
        sumOver (T ++ D) (fun c => msg.at c * U.at c)
          = sumOver (F ++ D) fun c => (arrays.map fun X => X.at c).prod * U.at c := by
  classical
  set n := A.length with hn
  set nd := D.length with hnd
  have hlen : ∀ X ∈ arrays, (padLeading (n + nd) X).shape.length = n + nd := by
    intro X hX
    have := hb.rank_ge _ (List.mem_map_of_mem (f := (·.shape)) hX)
    simp only [List.length_append] at this
    simp only [padLeading, List.length_append, List.length_replicate]
    omega
  set names : List (Nat ⊕ Nat) := axisNames n (List.range nd) with hnames
  set pn : List (Nat ⊕ Nat) := axisNames T.length (List.range nd) with hpn
  set Tn : List (Nat ⊕ Nat) := axisNames F.length (List.range nd) with hTn
  set len : List Nat → Nat ⊕ Nat → Nat := fun P l => match l with
    | inl j => axisLen P j
    | inr i => D.getD i 1 with hlenDef
  set lab : Nat ⊕ Nat → Nat := axisLabel 0 (n + ·) with hlab
  have hmap : ∀ P : List Nat, (axisNames P.length (List.range nd)).map (len P) = P ++ D := by
    intro P
    unfold axisNames plateNames
    rw [List.map_append, List.map_map, List.map_map]
    congr 1
    · exact (eq_map_axisLen P).symm
    · apply List.ext_getElem
      · simp [hnd]
      · intro i h1 h2
        simp [hlenDef, List.getElem?_eq_getElem h2]
  have hnamesnd : names.Nodup := nodup_axisNames List.nodup_range
  have hpnnd : pn.Nodup := nodup_axisNames List.nodup_range
  have hTnd : Tn.Nodup := nodup_axisNames List.nodup_range
  have hnl : names.length = n + nd := by rw [hnames, length_axisNames, List.length_range]
  set ops : List (Arr α × List (Nat ⊕ Nat)) := arrays.map fun X => (padLeading (n + nd) X, names) with hops
  have hopslen : ∀ op ∈ ops, op.2 = names ∧ op.1.shape.length = names.length := by
    intro op hop
    obtain ⟨X, hX, rfl⟩ := List.mem_map.1 hop
    exact ⟨rfl, by rw [hnl]; exact hlen X hX⟩
  have hfit : ∀ op ∈ ops, ∀ p ∈ op.2.zip op.1.shape, p.2 = 1 ∨ p.2 = len A p.1 := by
    intro op hop p hp
    obtain ⟨X, hX, rfl⟩ := List.mem_map.1 hop
    obtain ⟨i, hi, -, h2, h3⟩ := zip_axis (by rw [hnl]; exact hlen X hX) (hmap A) hp
    rw [h2, h3, axisLen_padLeading]
    exact hb.fits i _ (List.mem_map_of_mem hX)
  have hused : ∀ l, len A l ≠ 1 → ∃ op ∈ ops, (l, len A l) ∈ op.2.zip op.1.shape := by
    intro l hl
    have hln : l ∈ names := by
      rcases l with j | i
      · rw [hnames, mem_axisNames_inl]
        by_contra hc
        exact hl (axisLen_of_ge (by omega))
      · rw [hnames, mem_axisNames_inr, List.mem_range]
        by_contra hc
        apply hl
        simp only [hlenDef]
        rw [List.getD_eq_getElem?_getD, List.getElem?_eq_none (by omega)]
        rfl
    obtain ⟨j, hj, rfl⟩ := List.mem_iff_getElem.1 hln
    have ha : len A names[j] = axisLen (A ++ D) (names.length - 1 - j) := by
      rw [← hmap A, axisLen_map_len _ _ _ (by rw [← hnames]; omega)]
      congr 2
      rw [← hnames]
      omega
    rcases hb.attained (names.length - 1 - j) with h | ⟨s, hs, h⟩
    · exact absurd (ha.trans h) hl
    · obtain ⟨X, hX, rfl⟩ := List.mem_map.1 hs
      refine ⟨_, List.mem_map_of_mem hX, ?_⟩
      have := mem_zip_axis (names := names) (s := (padLeading (n + nd) X).shape)
        (by rw [hnl]; exact hlen X hX) (i := names.length - 1 - j) (by omega)
      rw [axisLen_padLeading, h, ← ha] at this
      simpa [show names.length - 1 - (names.length - 1 - j) = j by omega] using this
  have hlabinj : ∀ l ∈ names, ∀ l' ∈ names, lab l = lab l' → l = l' := by
    intro l hl l' hl' h
    rcases l with j | k <;> rcases l' with j' | k' <;> simp only [hlab, axisLabel] at h
    · congr 1; omega
    · rw [hnames, mem_axisNames_inl] at hl
      omega
    · rw [hnames, mem_axisNames_inl] at hl'
      omega
    · congr 1; omega
  -- the kept axes
  set m := min T.length n with hm
  set ls : List (Nat ⊕ Nat) := axisNames m (List.range nd) with hls
  set q : Nat ⊕ Nat → Bool := fun l => match l with
    | inl j => decide (axisLen T j ≠ 1)
    | inr _ => true with hq
  set out := ls.filter q with hout
  have hlsn : ∀ l ∈ ls, l ∈ names ∧ l ∈ pn := by
    rintro (j | i) hl
    · rw [hls, mem_axisNames_inl] at hl
      rw [hnames, hpn, mem_axisNames_inl, mem_axisNames_inl]
      omega
    · rw [hls, mem_axisNames_inr] at hl
      rw [hnames, hpn, mem_axisNames_inr, mem_axisNames_inr]
      exact ⟨hl, hl⟩
  have hoffn : (List.filter q (plateNames Nat m)) = ((List.range n).reverse.filter fun key =>
      decide (key < T.length) && decide (T.getD (T.length - 1 - key) 0 ≠ 1)).map inl := by
    unfold plateNames
    rw [List.filter_map, List.filter_reverse, List.filter_reverse]
    congr 2
    have h1 : (List.range n).filter (fun key => decide (key < T.length) &&
        decide (T.getD (T.length - 1 - key) 0 ≠ 1))
        = (List.range n).filter (fun key => decide (key < T.length) && decide (axisLen T key ≠ 1)) := by
      apply List.filter_congr
      intro k _
      by_cases hk : k < T.length
      · have := axisLen_eq_getElem (r := T) (j := T.length - 1 - k) (by omega)
        rw [show T.length - 1 - (T.length - 1 - k) = k by omega] at this
        rw [this, List.getD_eq_getElem?_getD, List.getElem?_eq_getElem (by omega)]
        rfl
      · simp [hk]
    rw [h1, filter_range_lt]
    rfl
  have houtlab : out.map lab = ((plateLabels 0 n).filter fun key => decide (key < T.length) &&
      decide (T.getD (T.length - 1 - key) 0 ≠ 1)) ++ (List.range nd).map (n + ·) := by
    rw [hout, hls]
    unfold axisNames
    rw [List.filter_append, List.map_append, hoffn]
    congr 1
    · have : plateLabels 0 n = (List.range n).reverse := by
        unfold plateLabels
        simp
      rw [this, List.map_map]
      have hid : (lab ∘ inl) = id := by
        funext j
        simp [hlab, axisLabel]
      rw [hid, List.map_id]
    · rw [List.filter_eq_self.2 (by intro l hl; obtain ⟨i, _, rfl⟩ := List.mem_map.1 hl; rfl), List.map_map]
      rfl
  have hnameslab : names.map lab = plateLabels 0 n ++ (List.range nd).map (n + ·) := map_axisLabel _ _ _ _
  obtain ⟨X0, hX0⟩ : ∃ X, X ∈ arrays := List.exists_mem_of_ne_nil _ hne
  have hopsne : (padLeading (n + nd) X0, names) ∈ ops := List.mem_map_of_mem hX0
  set K : List (Nat ⊕ Nat) := names.filter (· ∉ out) with hK
  have hKmem : ∀ l, l ∈ K ↔ l ∈ names ∧ l ∉ out := by
    intro l
    rw [hK, List.mem_filter, decide_eq_true_iff]
  have husediff : ∀ l, (∃ op ∈ ops, l ∈ op.2) ↔ l ∈ names := by
    intro l
    constructor
    · rintro ⟨op, hop, h⟩
      rwa [(hopslen op hop).1] at h
    · intro h
      exact ⟨_, hopsne, h⟩
  obtain ⟨y, hy, hysh, hyat⟩ := npEinsum_keyed ops out lab (len A) K
    (fun l l' h h' he => hlabinj l ((husediff l).1 h) l' ((husediff l').1 h') he)
    (by intro op hop; rw [(hopslen op hop).1, (hopslen op hop).2])
    hfit (by
      intro l _
      by_cases h : len A l = 1
      · exact .inl h
      · exact .inr (hused l h))
    ((nodup_axisNames List.nodup_range).filter _)
    (by
      intro l hl
      exact (husediff l).2 (hlsn l (List.mem_filter.1 hl).1).1)
    (hnamesnd.filter _) (by intro l; rw [hKmem, husediff])
  set G : (Nat ⊕ Nat → Nat) → α := fun e => (ops.map fun op => op.1.at (coord (op.2.map e))).prod with hG
  set r : Nat := (((List.range F.length).filter
      fun k => decide (∀ s ∈ [A, T], axisLen s k = 1)).map (axisLen F)).prod with hr
  have hmult : broadcastingMultiplier F [A, T] = .ok r := by
    rw [C04_multiplier_value, if_pos (by simp [hA, hT])]
  obtain ⟨z, hz, hzsh, hzat⟩ := reshape_names q (len A) ls (y := npScale r y) hysh
  -- its shape
  have haxmin : ∀ k, min (axisLen T k) (axisLen A k) = if axisLen T k ≠ 1 then axisLen A k else 1 := by
    intro k
    have h1 := hA.2 k
    have h2 := hT.2 k
    have h3 := hpos k
    split <;> omega
  have hdropax : ∀ (P : List Nat), m ≤ P.length →
      P.drop (P.length - m) = (List.range m).reverse.map (axisLen P) := by
    intro P hP
    apply List.ext_getElem
    · simp; omega
    · intro i h1 h2
      simp only [List.length_map, List.length_reverse, List.length_range] at h2
      simp only [List.getElem_drop, List.getElem_map, List.getElem_reverse, List.getElem_range,
        List.length_range]
      rw [← axisLen_eq_getElem (r := P) (j := P.length - m + i) (by omega)]
      congr 1
      omega
  set Q : List Nat := (List.range m).reverse.map fun k => if axisLen T k ≠ 1 then axisLen A k else 1 with hQ
  have hresult : List.zipWith min (T.drop (T.length - m)) (A.drop (n - m)) = Q := by
    rw [hdropax T (by omega), hn, hdropax A (by omega), hQ, List.zipWith_map]
    rw [List.zipWith_self]
    apply List.map_congr_left
    intro k _
    exact haxmin k
  have hlsmap : (ls.map fun l => if q l then len A l else 1) = Q ++ D := by
    rw [hls]
    unfold axisNames plateNames
    rw [List.map_append, List.map_map, List.map_map]
    congr 1
    · rw [hQ]
      apply List.map_congr_left
      intro k _
      simp only [Function.comp, hq, hlenDef, decide_eq_true_iff]
    · apply List.ext_getElem
      · simp [hnd]
      · intro i h1 h2
        simp [hlenDef, hq, List.getElem?_eq_getElem h2]
  have hQlen : Q.length = m := by simp [hQ]
  have hQax : ∀ k, k < m → axisLen Q k = if axisLen T k ≠ 1 then axisLen A k else 1 := by
    intro k hk
    have := axisLen_eq_getElem (r := Q) (j := Q.length - 1 - k) (by omega)
    rw [show Q.length - 1 - (Q.length - 1 - k) = k by omega] at this
    rw [this]
    simp only [hQ, List.getElem_map, List.getElem_reverse, List.getElem_range, List.length_map,
      List.length_reverse, List.length_range]
    rw [show m - 1 - (m - 1 - k) = k by omega]
  have hQT : BroadcastsTo Q T := by
    refine ⟨by rw [hQlen]; omega, fun k => ?_⟩
    by_cases hk : k < m
    · rw [hQax k hk]
      have h1 := hA.2 k
      have h2 := hT.2 k
      split <;> omega
    · exact .inl (axisLen_of_ge (by omega))
  refine ⟨z, Q, ?_, by rw [hzsh, hlsmap], hQT, ?_⟩
  · unfold computeMessage
    rw [(C03_is_shape_subset_iff T F).1 hT]
    simp only [bind, Except.bind, Bool.not_true, Bool.false_eq_true, if_false]
    rw [(broadcastedShape_ok _ _).2 hb]
    simp only
    have hp : (if D.length = 0 then A ++ D else (A ++ D).take ((A ++ D).length - D.length)) = A := by
      split
      · rename_i h
        rw [List.length_eq_zero_iff.1 h, List.append_nil]
      · rw [List.length_append, Nat.add_sub_cancel, List.take_left]
    have hd : (if D.length = 0 then [] else (A ++ D).drop ((A ++ D).length - D.length)) = D := by
      split
      · rename_i h
        exact (List.length_eq_zero_iff.1 h).symm
      · rw [List.length_append, Nat.add_sub_cancel, List.drop_left]
    rw [hp, hd, hmult]
    have hmax : (arrays.map fun X => X.shape.length).foldl max 0 = n + nd := by
      apply foldl_max_eq
      · omega
      · intro x hx
        obtain ⟨X, hX, rfl⟩ := List.mem_map.1 hx
        have := hb.rank_ge _ (List.mem_map_of_mem (f := (·.shape)) hX)
        simpa using this
      · rcases hb.rank_le with h | ⟨s, hs, h⟩
        · left
          rw [List.length_append] at h
          omega
        · right
          obtain ⟨X, hX, rfl⟩ := List.mem_map.1 hs
          rw [List.mem_map]
          exact ⟨X, hX, by simpa using h⟩
    have heq : makeEqualNdim arrays = .ok (arrays.map (padLeading (n + nd))) := by
      unfold makeEqualNdim
      rw [if_neg (by simpa using hne), hmax]
    rw [heq]
    simp only
    have hopsmap : ((arrays.map (padLeading (n + nd))).map fun X =>
        (X, plateLabels 0 A.length ++ (List.range D.length).map (A.length + ·)))
        = ops.map fun op => (op.1, op.2.map lab) := by
      rw [hops, List.map_map, List.map_map]
      apply List.map_congr_left
      intro X _
      simp only [Function.comp, hnameslab]
      rfl
    rw [hopsmap]
    have houtlab' := houtlab
    rw [hn, hnd] at houtlab'
    rw [← houtlab', hy]
    simp only
    have hresult' := hresult
    rw [hm, hn] at hresult'
    rw [hresult', ← hlsmap, hz]
  · intro U hU
    have hpnmap : pn.map (len T) = T ++ D := hmap T
    have hpnlen : pn.length = (T ++ D).length := by rw [← hpnmap]; simp
    set Uf : (Nat ⊕ Nat → Nat) → α := fun e => U.at (coord (pn.map e)) with hUf
    have hGdep : ∀ e e', (∀ l, len A l ≠ 1 → e l = e' l) → G e = G e' := by
      intro e e' h
      simp only [hG]
      congr 1
      apply List.map_congr_left
      intro op hop
      apply op.1.at_congr
      intro i hi
      obtain ⟨h1, h2⟩ := hopslen op hop
      have hil : i < names.length := by
        by_contra hc
        exact hi (axisLen_of_ge (by omega))
      rw [h1, coord_map_getD _ _ _ hil, coord_map_getD _ _ _ hil]
      apply h
      intro h3
      have := hfit op hop _ (by rw [h1]; exact mem_zip_axis h2 hil)
      simp only [h3, or_self] at this
      exact hi this
    have hUdep : ∀ e e', (∀ l ∈ pn, len T l ≠ 1 → e l = e' l) → Uf e = Uf e' := by
      intro e e' h
      apply U.at_congr
      intro i hi
      have hil : i < pn.length := by
        by_contra hc
        have := hU.1
        exact hi (axisLen_of_ge (by omega))
      rw [coord_map_getD _ _ _ hil, coord_map_getD _ _ _ hil]
      apply h _ (List.getElem_mem _)
      intro h1
      rcases hU.2 i with h' | h'
      · exact hi h'
      · rw [← hpnmap, axisLen_map_len _ _ _ hil, h1] at h'
        exact hi h'
    have hoq : ∀ l, l ∈ names → l ∈ pn → len T l ≠ 1 → l ∈ out := by
      intro l h1 h2 h3
      refine List.mem_filter.2 ⟨?_, ?_⟩
      · rcases l with j | i
        · rw [hnames, mem_axisNames_inl] at h1
          rw [hpn, mem_axisNames_inl] at h2
          rw [hls, mem_axisNames_inl]
          omega
        · rw [hnames, mem_axisNames_inr] at h1
          rw [hls, mem_axisNames_inr]
          exact h1
      · rcases l with j | i
        · simp only [hq, decide_eq_true_iff]; exact h3
        · rfl
    have hlennames : ∀ l, len A l ≠ 1 → l ∈ names := by
      intro l hl
      obtain ⟨op, hop, h⟩ := hused l hl
      rw [← (hopslen op hop).1]
      exact (List.of_mem_zip h).1
    have hmain := message_sum Tn pn K (len F) (len T) (len A) G Uf (fun _ => 0) hTnd hpnnd
      (by
        rintro (j | i) hl
        · rw [hpn, mem_axisNames_inl] at hl
          rw [hTn, mem_axisNames_inl]
          exact lt_of_lt_of_le hl hT.1
        · rw [hpn, mem_axisNames_inr] at hl
          rw [hTn, mem_axisNames_inr]
          exact hl)
      (by
        rintro (j | i) _
        · exact hT.2 j
        · exact .inr rfl)
      (by
        intro l hl
        have hln := hlennames l hl
        rcases l with j | i
        · rw [hnames, mem_axisNames_inl] at hln
          rw [hTn, mem_axisNames_inl]
          exact ⟨lt_of_lt_of_le hln hA.1, (hA.2 j).resolve_left hl⟩
        · rw [hnames, mem_axisNames_inr] at hln
          rw [hTn, mem_axisNames_inr]
          exact ⟨hln, rfl⟩) hGdep hUdep (hnamesnd.filter _)
      (by
        rintro l hl ⟨h1, h2⟩
        obtain ⟨h3, h4⟩ := (hKmem l).1 hl
        exact h4 (hoq l h3 h1 h2))
      (by
        intro l hl hno
        refine (hKmem l).2 ⟨hlennames l hl, fun ho => ?_⟩
        obtain ⟨h1, h2⟩ := List.mem_filter.1 ho
        refine hno ⟨(hlsn l h1).2, ?_⟩
        rcases l with j | i
        · simpa only [hq, decide_eq_true_iff] using h2
        · exact hl)
    have hrr : ∀ inst : DecidablePred fun l => ¬ (l ∈ pn ∧ len T l ≠ 1) ∧ len A l = 1,
        ((Tn.filter fun l => @decide (¬ (l ∈ pn ∧ len T l ≠ 1) ∧ len A l = 1) (inst l)).map (len F)).prod
          = r := by
      intro inst
      rw [hTn]
      unfold axisNames plateNames
      rw [List.filter_append, List.map_append, List.prod_append, List.filter_map, List.filter_map,
        List.map_map, List.map_map]
      have h2 : (((List.range nd).filter ((fun l => decide (¬ (l ∈ pn ∧ len T l ≠ 1) ∧ len A l = 1)) ∘ inr)).map
          (len F ∘ inr)).prod = 1 := by
        apply List.prod_eq_one
        intro x hx
        obtain ⟨k, hk, rfl⟩ := List.mem_map.1 hx
        obtain ⟨_, hk'⟩ := List.mem_filter.1 hk
        simp only [Function.comp, decide_eq_true_iff] at hk'
        exact hk'.2
      rw [h2, mul_one, hr]
      rw [List.filter_reverse, List.map_reverse, List.prod_reverse]
      congr 1
      have : (List.range F.length).filter
          ((fun l => decide (¬ (l ∈ pn ∧ len T l ≠ 1) ∧ len A l = 1)) ∘ inl)
          = (List.range F.length).filter fun k => decide (∀ s ∈ [A, T], axisLen s k = 1) := by
        apply List.filter_congr
        intro j _
        simp only [Function.comp, decide_eq_decide]
        rw [hpn, mem_axisNames_inl]
        simp only [hlenDef, List.mem_cons, List.not_mem_nil, or_false, forall_eq_or_imp, forall_eq]
        constructor
        · rintro ⟨h1, h2⟩
          refine ⟨h2, ?_⟩
          by_contra h3
          exact h1 ⟨by by_contra hc; exact h3 (axisLen_of_ge (by omega)), h3⟩
        · rintro ⟨h1, h2⟩
          exact ⟨fun h => h.2 h2, h1⟩
      rw [this]
      rfl
    have hmain2 : sumKeys (Tn.map fun l => (l, len F l)) (fun e => G e * Uf e) (fun _ => 0)
        = sumKeys (pn.map fun l => (l, len T l)) (fun e =>
          (r : α) * sumKeys (K.map fun l => (l, len A l)) G e * Uf e) (fun _ => 0) := by
      rw [hmain]
      congr 1
      funext e
      congr 2
      exact congrArg Nat.cast (hrr _)
    have hzB : BroadcastsTo z.shape (T ++ D) := by
      rw [hzsh, hlsmap]
      exact Verif.broadcastsTo_append_right hQT
    have hL : sumOver (T ++ D) (fun c => z.at c * U.at c)
        = sumKeys (pn.map fun l => (l, len T l)) (fun e =>
          (r : α) * sumKeys (K.map fun l => (l, len A l)) G e * Uf e) (fun _ => 0) := by
      rw [← hpnmap, sumOver_keys pn hpnnd (len T) _ (fun _ => 0)]
      apply sumKeys_congr' _ (by simpa [Function.comp_def] using hpnnd)
      intro e _ he
      have hlt : ∀ l ∈ pn, e l < len T l := fun l hl => he (l, len T l) (List.mem_map_of_mem hl)
      simp only [hUf]
      congr 1
      set c := coord (pn.map e) with hc
      have hcv : ValidIn (T ++ D) c := by
        rw [← hpnmap]
        exact validIn_coord_map pn (len T) e hlt
      obtain ⟨c', hc', hcl⟩ := hzat _ (restrict_valid hzB.2 hcv)
      show z.get (restrict z.shape c) = _
      rw [hc']
      show (r : α) * y.get c' = _
      congr 1
      set e' : Nat ⊕ Nat → Nat := fun l => c' (out.length - 1 - out.idxOf l) with he'
      rw [hyat c' e' (fun l _ => rfl)]
      apply sumKeys_base _ _ (fun l => len A l ≠ 1) hGdep
      intro l hl hlK
      have hlK' : l ∉ K := by
        intro h
        exact hlK (by simpa [Function.comp_def] using h)
      have hlout : l ∈ out := by
        by_contra hno
        exact hlK' ((hKmem l).2 ⟨hlennames l hl, hno⟩)
      obtain ⟨hlm, hlq⟩ := List.mem_filter.1 hlout
      have hi := List.idxOf_lt_length_of_mem hlm
      simp only [he']
      rw [hcl l hlm hlq]
      have hax : axisLen z.shape (ls.length - 1 - ls.idxOf l) = len A l := by
        rw [hzsh, axisLen_map_len _ _ _ (by omega)]
        have e : ls.length - 1 - (ls.length - 1 - ls.idxOf l) = ls.idxOf l := by omega
        simp only [e, List.getElem_idxOf hi]
        rw [if_pos hlq]
      unfold restrict
      rw [hax, if_neg hl, hc]
      have hlsdrop : pn.drop (T.length - n) = ls := drop_axisNames _ _ _
      have hpos' : ls.length - 1 - ls.idxOf l = pn.length - 1 - pn.idxOf l := by
        have hidx : pn.idxOf l = (T.length - n) + ls.idxOf l := by
          conv_lhs => rw [← List.take_append_drop (T.length - n) pn]
          rw [hlsdrop, List.idxOf_append_of_notMem]
          · congr 1
            rw [List.length_take, hpn, length_axisNames]
            omega
          · intro h
            have hdis := List.disjoint_take_drop hpnnd (le_refl (T.length - n))
            exact hdis h (by rw [hlsdrop]; exact hlm)
        rw [hidx]
        have : ls.length = pn.length - (T.length - n) := by rw [← hlsdrop]; simp
        omega
      rw [hpos']
      exact coord_map_idxOf pn e (hlsn l hlm).2
    rw [hL, ← hmain2, ← hmap F, sumOver_keys Tn hTnd (len F) _ (fun _ => 0)]
    congr 1
    funext e
    have hcoord : ∀ (X : Arr α) (k k' : Nat), X.shape.length ≤ k + nd → X.shape.length ≤ k' + nd →
        X.at (coord ((axisNames k (List.range nd)).map e)) = X.at (coord ((axisNames k' (List.range nd)).map e)) := by
      intro X k k' h h'
      apply X.at_congr
      intro i hi
      have hil : i < X.shape.length := by
        by_contra hc
        exact hi (axisLen_of_ge (by omega))
      rw [coord_axisNames _ _ _ _ (by simp; omega), coord_axisNames _ _ _ _ (by simp; omega)]
    congr 1
    · simp only [hG, hops, List.map_map]
      congr 1
      apply List.map_congr_left
      intro X hX
      simp only [Function.comp]
      rw [at_padLeading]
      have := hb.rank_ge _ (List.mem_map_of_mem (f := (·.shape)) hX)
      simp only [List.length_append] at this
      have := hA.1
      exact hcoord X _ _ (by omega) (by omega)
    · have := hU.1
      simp only [List.length_append] at this
      have := hT.1
      exact hcoord U _ _ (by omega) (by omega)

/-- **C56** (rejection).  Plates of the parent or of the arrays which do not broadcast to the plates of the node,
and arrays which do not broadcast together, raise `ValueError`. -/
theorem C56_rejects (arrays : List (Arr α)) (F T : List Nat) (ndim : Nat) :
    (¬ BroadcastsTo T F → computeMessage arrays F T ndim = .error .valueError) ∧
    (BroadcastsTo T F → (¬ ∃ B, IsBroadcast (arrays.map (·.shape)) B) →
      computeMessage arrays F T ndim = .error .valueError) ∧
    ∀ A D, D.length = ndim → BroadcastsTo T F → IsBroadcast (arrays.map (·.shape)) (A ++ D) →
      ¬ BroadcastsTo A F → computeMessage arrays F T ndim = .error .valueError := by
  refine ⟨fun h => ?_, fun hT h => ?_, ?_⟩
  · unfold computeMessage
    rw [(C03_is_shape_subset_iff T F).2 h]
    rfl
  · unfold computeMessage
    rw [(C03_is_shape_subset_iff T F).1 hT]
    simp only [bind, Except.bind, Bool.not_true, Bool.false_eq_true, if_false]
    cases hs : broadcastedShape (arrays.map (·.shape)) with
    | error e => rw [broadcastedShape_error hs]
    | ok B => exact absurd ⟨B, (broadcastedShape_ok _ _).1 hs⟩ h
  · rintro A D rfl hT hb hA
    unfold computeMessage
    rw [(C03_is_shape_subset_iff T F).1 hT]
    simp only [bind, Except.bind, Bool.not_true, Bool.false_eq_true, if_false]
    rw [(broadcastedShape_ok _ _).2 hb]
    simp only
    have hp : (if D.length = 0 then A ++ D else (A ++ D).take ((A ++ D).length - D.length)) = A := by
      split
      · rename_i h
        rw [List.length_eq_zero_iff.1 h, List.append_nil]
      · rw [List.length_append, Nat.add_sub_cancel, List.take_left]
    rw [hp, C04_multiplier_value, if_neg (by simp [hA])]

/-- The restriction to plates without an axis of length zero is needed: the plates of the result are the minimum
of the plates of the parent and of the arrays, so for an empty plate axis the reshape can fail. -/
theorem C56_empty_plates_raises :
    computeMessage [⟨[0], fun _ => (1 : ℚ)⟩] [0] [1] 0 = .error .valueError ∧
    computeMessage [⟨[1], fun _ => (1 : ℚ)⟩] [0] [0] 0 = .error .valueError := by
  constructor <;> rfl

omit [CommSemiring α] in
theorem set_eq_perm {β : Type} {us : List β} {i : Nat} (hi : i < us.length) (u : β) :
    (us.set i u).Perm (u :: us.eraseIdx i) := set_perm_cons us i u hi

/-- **C18** (messages to a Gaussian-gamma parent).  The third and fourth messages are the coefficients of the third
and fourth moments of the parent: whatever moments `U` are put in place of those of parent `i`, the pairing of
the masked message of the children with the moments of the node equals the pairing of the message with `U`
(for the fourth moments, up to what the node gets from the other parents alone). -/
theorem C18_gamma_message (us : List (Bool × Arr α × Arr α)) (i : Nat) (hi : i < us.length)
    (S PP : List Nat) (mask m2 m3 : Arr α) (hpos : ∀ k, axisLen S k ≠ 0) (hPP : BroadcastsTo PP S)
    (h2 : ∀ u ∈ us, BroadcastsTo u.2.1.shape S) (h3 : ∀ u ∈ us, BroadcastsTo u.2.2.shape S)
    (hmask : BroadcastsTo mask.shape S) (hm2 : BroadcastsTo m2.shape S) (hm3 : BroadcastsTo m3.shape S) :
    ∃ r2 r3, smGammaMessage mask S (us.map fun u => (u.1, u.2.1)) i PP m2 m3 = .ok (r2, r3) ∧
      BroadcastsTo r2.shape PP ∧ BroadcastsTo r3.shape PP ∧
      ∀ U V : Arr α, BroadcastsTo U.shape PP → BroadcastsTo V.shape PP →
        ∃ x2 x3 x3', smGamma ((us.set i (false, U, V)).map fun u => (u.1, u.2.1)) = .ok x2 ∧
          smLogGamma ((us.set i (false, U, V)).map fun u => (u.1, u.2.2)) = .ok x3 ∧
          smLogGamma ((us.eraseIdx i).map fun u => (u.1, u.2.2)) = .ok x3' ∧
          sumOver S (fun c => mask.at c * m2.at c * x2.at c) = sumOver PP (fun c => r2.at c * U.at c) ∧
          sumOver S (fun c => mask.at c * m3.at c * x3.at c)
            = sumOver PP (fun c => r3.at c * V.at c) + sumOver S (fun c => mask.at c * m3.at c * x3'.at c) := by
  classical
  have herase : ∀ u ∈ us.eraseIdx i, u ∈ us := fun u hu => List.mem_of_mem_eraseIdx hu
  set alphas : List (Arr α) := (us.eraseIdx i).map fun u => if !u.1 then u.2.1 else scalarArr 1 with halphas
  have halB : ∀ X ∈ m2 :: mask :: alphas, BroadcastsTo X.shape S := by
    intro X hX
    simp only [List.mem_cons] at hX
    rcases hX with rfl | rfl | hX
    · exact hm2
    · exact hmask
    · obtain ⟨u, hu, rfl⟩ := List.mem_map.1 hX
      split
      · exact h2 u (herase u hu)
      · exact scalar_broadcastsTo 1 S
  have hexists : ∀ L : List (Arr α), (∀ X ∈ L, BroadcastsTo X.shape S) →
      ∃ A, IsBroadcast (L.map (·.shape)) A ∧ BroadcastsTo A S := by
    intro L hL
    apply exists_isBroadcast_of_all
    intro s hs
    obtain ⟨X, hX, rfl⟩ := List.mem_map.1 hs
    exact hL X hX
  obtain ⟨A2, hA2, hA2S⟩ := hexists _ halB
  obtain ⟨A3, hA3, hA3S⟩ := hexists [m3, mask] (by simp [hm3, hmask])
  obtain ⟨r2, Q2, hr2, hr2s, hQ2, hr2a⟩ := C56_compute_message (m2 :: mask :: alphas) (by simp) A2 [] S PP
    (by rwa [List.append_nil]) hA2S hPP hpos
  obtain ⟨r3, Q3, hr3, hr3s, hQ3, hr3a⟩ := C56_compute_message [m3, mask] (by simp) A3 [] S PP
    (by rwa [List.append_nil]) hA3S hPP hpos
  refine ⟨r2, r3, ?_, by rwa [hr2s, List.append_nil], by rwa [hr3s, List.append_nil], ?_⟩
  · unfold smGammaMessage
    simp only
    have : ((us.map fun u => (u.1, u.2.1)).eraseIdx i).map
        (fun u : Bool × Arr α => if !u.1 then u.2 else scalarArr 1) = alphas := by
      rw [List.eraseIdx_map, List.map_map]
      rfl
    rw [this]
    simp only [List.length_nil] at hr2 hr3
    rw [hr2]
    simp only [bind, Except.bind]
    rw [hr3]
    rfl
  · intro U V hU hV
    have hperm := set_eq_perm hi (false, U, V)
    have hset2 : ∀ u ∈ us.set i (false, U, V), BroadcastsTo u.2.1.shape S := by
      intro u hu
      rcases List.mem_cons.1 (hperm.mem_iff.1 hu) with rfl | hu
      · exact Verif.BroadcastsTo.trans hU hPP
      · exact h2 u (herase u hu)
    have hset3 : ∀ u ∈ us.set i (false, U, V), BroadcastsTo u.2.2.shape S := by
      intro u hu
      rcases List.mem_cons.1 (hperm.mem_iff.1 hu) with rfl | hu
      · exact Verif.BroadcastsTo.trans hV hPP
      · exact h3 u (herase u hu)
    obtain ⟨x2, x3, hx2, hx3, -, -, hx2a, hx3a⟩ := C18_gamma_moments (us.set i (false, U, V)) S hset2 hset3
    obtain ⟨-, x3', -, hx3', -, -, -, hx3a'⟩ := C18_gamma_moments (us.eraseIdx i) S
      (fun u hu => h2 u (herase u hu)) (fun u hu => h3 u (herase u hu))
    refine ⟨x2, x3, x3', hx2, hx3, hx3', ?_, ?_⟩
    · have := hr2a U (by rwa [List.append_nil])
      simp only [List.append_nil] at this
      rw [this]
      apply sumOver_congr_valid
      intro c _
      rw [hx2a, ((hperm.filter _).map _).prod_eq]
      have hal : (alphas.map fun X => X.at c).prod
          = (((us.eraseIdx i).filter fun u => !u.1).map fun u => u.2.1.at c).prod := by
        rw [halphas]
        generalize us.eraseIdx i = vs
        induction vs with
        | nil => rfl
        | cons v vs ih =>
          simp only [List.map_cons, List.prod_cons, List.filter_cons, ih]
          cases v.1
          · simp
          · simp [scalarArr, Arr.at]
      simp only [List.map_cons, List.prod_cons, hal, List.filter_cons, Bool.not_false, if_true]
      ring
    · have := hr3a V (by rwa [List.append_nil])
      simp only [List.append_nil] at this
      rw [this, ← sumOver_add]
      apply sumOver_congr_valid
      intro c _
      rw [hx3a, hx3a', ((hperm.filter _).map _).sum_eq]
      simp only [List.map_cons, List.sum_cons, List.map_nil, List.prod_cons, List.prod_nil, List.filter_cons,
        Bool.not_false, if_true]
      ring

end

/-- The hypotheses of `C56_compute_message` are met by a mask with a broadcast plate axis, a message with two plate
axes and one variable axis, for a parent without the second plate axis. -/
example : ∃ msg Q, computeMessage [⟨[3, 1, 1], fun c => (c 2 : ℚ)⟩, ⟨[2, 4], fun c => (c 0 : ℚ) + c 1⟩] [5, 3, 2]
    [3, 1] 1 = .ok msg ∧ msg.shape = Q ++ [4] ∧ BroadcastsTo Q [3, 1] := by
  obtain ⟨msg, Q, h1, h2, h3, -⟩ := C56_compute_message
    [⟨[3, 1, 1], fun c => (c 2 : ℚ)⟩, ⟨[2, 4], fun c => (c 0 : ℚ) + c 1⟩] (by simp) [3, 2] [4] [5, 3, 2] [3, 1]
    ((broadcastedShape_ok _ _).1 rfl) ((isShapeSubset_true _ _).1 rfl) ((isShapeSubset_true _ _).1 rfl)
    (by
      intro k
      match k with
      | 0 => decide
      | 1 => decide
      | 2 => decide
      | k + 3 => rw [axisLen_of_ge (by simp)]; decide)
  exact ⟨msg, Q, h1, h2, h3⟩

/-- The element for the plate 2 and the variable index 3: `5 · Σ_j 2 (3 + j) = 5 · 2 · (3 + 4) = 70`. -/
example : (do
    let y ← computeMessage (α := ℚ) [⟨[3, 1, 1], fun c => (c 2 : ℚ)⟩, ⟨[2, 4], fun c => (c 0 : ℚ) + c 1⟩]
      [5, 3, 2] [3, 1] 1
    return (y.shape, y.get (coord [2, 0, 3])) : Except PyErr _) = .ok ([3, 1, 4], 70) := by decide +kernel

/-- Three parents, one of them constant: third and fourth moments. -/
def gammaExample : List (Bool × Arr ℚ × Arr ℚ) :=
  [(false, ⟨[], fun _ => 2⟩, ⟨[], fun _ => 1⟩), (true, ⟨[], fun _ => 0⟩, ⟨[], fun _ => 0⟩),
    (false, ⟨[4], fun c => (c 0 : ℚ) + 1⟩, ⟨[4], fun c => (c 0 : ℚ)⟩)]

/-- The hypotheses of `C18_gamma_message` are met by three parents and four plates, the receiving parent being
shared by all plates. -/
example : ∃ r2 r3, smGammaMessage ⟨[4], fun c => if c 0 < 3 then (1 : ℚ) else 0⟩ [4]
    (gammaExample.map fun u => (u.1, u.2.1)) 0 [] ⟨[4], fun c => (c 0 : ℚ)⟩ ⟨[], fun _ => 5⟩ = .ok (r2, r3) ∧
    BroadcastsTo r2.shape [] := by
  have hb : BroadcastsTo [4] [4] := (isShapeSubset_true _ _).1 rfl
  have hn : BroadcastsTo [] [4] := (isShapeSubset_true _ _).1 rfl
  obtain ⟨r2, r3, h, h2, -⟩ := C18_gamma_message gammaExample 0 (by simp [gammaExample]) [4] []
    ⟨[4], fun c => if c 0 < 3 then (1 : ℚ) else 0⟩ ⟨[4], fun c => (c 0 : ℚ)⟩ ⟨[], fun _ => 5⟩
    (by
      intro k
      match k with
      | 0 => decide
      | k + 1 => rw [axisLen_of_ge (by simp)]; decide) hn
    (by simp [gammaExample, hb, hn]) (by simp [gammaExample, hb, hn]) hb hb hn
  exact ⟨r2, r3, h, h2⟩

end Verif
