import Verif.Lemmas.Slice
import Verif.Lemmas.SumOver

/-!
# C12: slicing a node

`full` is the index with one entry per plate axis (`Expands`), `P` are the parent's plates and `C` the
plates of the result.  All relations of `Verif/Spec/Slice.lean` run from the last axis to the first one,
hence the `reverse`.
-/

namespace Verif
open Spec

/-! ## Lemmas -/

theorem bcR_append {T T' vs ws : List Nat} (hT : BcR T T') (hl : T.length = T'.length ∨ vs = [])
    (h : BcR vs ws) : BcR (T ++ vs) (T' ++ ws) := by
  induction T generalizing T' with
  | nil =>
    cases T' with
    | nil => exact h
    | cons t T' =>
      rcases hl with hl | hl
      · simp at hl
      · subst hl; trivial
  | cons t T ih =>
    cases T' with
    | nil => cases hT
    | cons t' T' => exact ⟨hT.1, ih hT.2 (by simpa using hl)⟩

theorem bcR_split {S D C : List Nat} (h : BcR S (D ++ C)) :
    BcR (S.take D.length) D ∧ BcR (S.drop D.length) C := by
  induction D generalizing S with
  | nil => exact ⟨trivial, h⟩
  | cons d D ih =>
    cases S with
    | nil => exact ⟨trivial, trivial⟩
    | cons s S => exact ⟨⟨h.1, (ih h.2).1⟩, (ih h.2).2⟩

theorem lenR_append (T S : List Nat) (k : Nat) :
    lenR (T ++ S) k = if k < T.length then lenR T k else lenR S (k - T.length) := by
  unfold lenR
  split
  · rw [List.getElem?_append_left ‹_›]
  · rw [List.getElem?_append_right (by omega)]

theorem restrictR_append (T S : List Nat) (d c : Nat → Nat) :
    restrictR (T ++ S) (joinC T.length d c) = joinC T.length (restrictR T d) (restrictR S c) := by
  funext k
  unfold restrictR joinC
  rw [lenR_append]
  split <;> rfl

theorem npGetItem_ok {α : Type} (X : Arr α) (ix : List NIx) (D : Nat) {vs : List Nat}
    (hax : nixAxes ix = (X.shape.reverse.drop D).length)
    (hv : nviewShape ix (X.shape.reverse.drop D) = .ok vs) (hD : D ≤ X.shape.length ∨ ix = []) :
    ∃ V, npGetItem X ix = .ok V ∧ V.shape.reverse = X.shape.reverse.take D ++ vs ∧
      ∀ d w c, nviewCoord ix (X.shape.reverse.drop D) (restrictR vs w) =
          restrictR (X.shape.reverse.drop D) c → V.at (joinC D d w) = X.at (joinC D d c) := by
  rw [List.length_drop, List.length_reverse] at hax
  by_cases hle : D ≤ X.shape.length
  · have hn : X.shape.reverse.length - nixAxes ix = D := by rw [List.length_reverse]; omega
    unfold npGetItem
    simp only [hn]
    rw [if_neg (by rw [List.length_reverse]; omega), hv]
    refine ⟨_, rfl, by rw [List.reverse_reverse], fun d w c hc => ?_⟩
    have hT : (X.shape.reverse.take D).length = D := by simp [hle]
    have hX : X.shape = (X.shape.reverse.take D ++ X.shape.reverse.drop D).reverse := by
      rw [List.take_append_drop, List.reverse_reverse]
    have h1 : ∀ S c, restrictR (X.shape.reverse.take D ++ S) (joinC D d c) =
        joinC D (restrictR (X.shape.reverse.take D) d) (restrictR S c) := by
      intro S c
      have := restrictR_append (X.shape.reverse.take D) S d c
      rwa [hT] at this
    unfold Arr.at
    simp only
    conv_rhs => rw [hX]
    rw [restrict_reverse, restrict_reverse, h1, h1]
    congr 1
    have h2 : (fun k => joinC D (restrictR (X.shape.reverse.take D) d) (restrictR vs w) (k + D)) =
        restrictR vs w := by
      funext k
      unfold joinC
      rw [if_neg (by omega), Nat.add_sub_cancel]
    rw [h2, hc]
    funext k
    unfold joinC
    split <;> rfl
  · have hix : ix = [] := hD.resolve_left hle
    subst hix
    have hdrop : X.shape.reverse.drop D = [] := List.drop_of_length_le (by simp; omega)
    rw [hdrop] at hv
    cases hv
    unfold npGetItem
    rw [if_neg (by simp [nixAxes])]
    refine ⟨X, ?_, by rw [List.take_of_length_le (by simp; omega), List.append_nil], fun d w c _ => ?_⟩
    · have hn : X.shape.reverse.length - nixAxes [] = X.shape.length := by simp [nixAxes]
      rw [hn, List.drop_of_length_le (by simp), List.take_of_length_le (by simp)]
      simp only [nviewShape, nviewCoord]
      show Except.ok _ = Except.ok X
      congr 1
      obtain ⟨sh, g⟩ := X
      congr 1
      · rw [List.append_nil, List.reverse_reverse]
      · funext c
        show g _ = g c
        congr 1
        funext k
        unfold joinC
        split
        · rfl
        · rename_i hlt; exact congrArg c (Nat.sub_add_cancel (Nat.le_of_not_lt hlt))
    · apply Arr.at_congr
      intro k hk
      unfold joinC
      split
      · rfl
      · exact absurd (axisLen_of_ge (s := X.shape) (k := k) (by omega)) hk

theorem npSetItem_ok {α : Type} [Zero α] (q dims : List Nat) (ix : List NIx) (V : Arr α) {ws : List Nat}
    (hax : nixAxes ix = q.length) (hw : nviewShape ix q = .ok ws)
    (hV : BcR V.shape.reverse (dims.reverse ++ ws)) :
    ∃ Y, npSetItem (⟨q.reverse ++ dims, fun _ => 0⟩ : Arr α) ix V = .ok Y ∧ Y.shape = q.reverse ++ dims ∧
      ∀ d p, (∀ w, nviewInv ix q (restrictR q p) = some w →
          Y.at (joinC dims.length d p) = V.at (joinC dims.length (restrict dims d) w)) ∧
        (nviewInv ix q (restrictR q p) = none → Y.at (joinC dims.length d p) = 0) := by
  have hrev : (q.reverse ++ dims).reverse = dims.reverse ++ q := by simp
  have hn : (q.reverse ++ dims).reverse.length - nixAxes ix = dims.length := by
    rw [hrev, hax, List.length_append, List.length_reverse]; omega
  unfold npSetItem
  simp only [hn]
  rw [if_neg (by rw [hrev, List.length_append, hax]; omega), hrev,
    List.drop_left' (by simp), List.take_left' (by simp), hw]
  simp only [bind, Except.bind]
  rw [if_pos]
  · refine ⟨_, rfl, rfl, fun d p => ?_⟩
    have h1 : restrict (q.reverse ++ dims) (joinC dims.length d p) =
        joinC dims.length (restrict dims d) (restrictR q p) := by
      have := restrictR_append dims.reverse q d p
      rw [List.length_reverse] at this
      rw [← restrict_reverse, List.reverse_append, List.reverse_reverse] at this
      rw [this, ← restrict_reverse, List.reverse_reverse]
    have h2 : (fun k => joinC dims.length (restrict dims d) (restrictR q p) (k + dims.length)) = restrictR q p := by
      funext k
      unfold joinC
      rw [if_neg (by omega), Nat.add_sub_cancel]
    constructor
    · intro w hw
      show (match nviewInv ix q fun k => restrict (q.reverse ++ dims) (joinC dims.length d p) (k + dims.length) with
        | some q' => V.at (joinC dims.length (restrict (q.reverse ++ dims) (joinC dims.length d p)) q')
        | none => 0) = _
      rw [h1, h2, hw]
      show V.at _ = V.at _
      congr 1
      funext k
      unfold joinC
      split <;> rfl
    · intro hw
      show (match nviewInv ix q fun k => restrict (q.reverse ++ dims) (joinC dims.length d p) (k + dims.length) with
        | some q' => V.at (joinC dims.length (restrict (q.reverse ++ dims) (joinC dims.length d p)) q')
        | none => 0) = _
      rw [h1, h2, hw]
  · rw [List.all_eq_true]
    intro k _
    have := ((bcR_iff _ _).1 hV).2 k
    rw [← axisLen_reverse, ← axisLen_reverse, List.reverse_reverse] at this
    simpa using this

section
variable {raw full : List RawIx} {P C : List Nat} {es : List Ix}

theorem pre_of_init (hfull : Expands raw P.length full) (hinit : sliceInit raw P = .ok es) : Pre full P es := by
  unfold sliceInit at hinit
  rw [sliceExpand_ok hfull] at hinit
  exact pre_of_preprocess hinit hfull.1

theorem plates_eq (hpre : Pre full P es) (hC : IndexedShape full.reverse P.reverse C.reverse) :
    C = platesOf es := by
  have := indexedShape_unique hpre.reverse hC
  rw [platesOf_reverse] at this
  exact List.reverse_injective this

theorem exists_colons (raw : List RawIx) (n : Nat) (h : axesUsed raw ≤ n)
    (hell : raw.countP (fun e => match e with | .ellipsis => true | _ => false) ≤ 1) :
    ∃ full, Expands raw n full := by
  by_cases h0 : RawIx.ellipsis ∈ raw
  · obtain ⟨a, b, rfl⟩ := List.append_of_mem h0
    have hc : a.countP (fun e => match e with | .ellipsis => true | _ => false) = 0 ∧
        b.countP (fun e => match e with | .ellipsis => true | _ => false) = 0 := by
      rw [List.countP_append, List.countP_cons] at hell
      simp only [if_true] at hell
      omega
    have hu : axesUsed (a ++ RawIx.ellipsis :: b) = axesUsed a + axesUsed b := by rw [axesUsed_append]; rfl
    refine ⟨a ++ List.replicate (n - (axesUsed a + axesUsed b)) colon ++ b, ?_, .inr ⟨a, b, _, rfl, ?_, ?_, rfl⟩⟩
    · rw [axesUsed_append, axesUsed_append, axesUsed_colons]; omega
    · intro hm
      have := List.countP_eq_zero.1 hc.1 _ hm
      simp at this
    · intro hm
      have := List.countP_eq_zero.1 hc.2 _ hm
      simp at this
  · refine ⟨raw ++ List.replicate (n - axesUsed raw) colon, ?_, .inl ⟨h0, _, rfl⟩⟩
    rw [axesUsed_append, axesUsed_colons]; omega

/-! ## The property -/

/-- **C12** The constructor accepts exactly the indices NumPy accepts, except that it rejects those whose
result has an empty axis. -/
theorem C12_init (hfull : Expands raw P.length full) :
    (∃ es, sliceInit raw P = .ok es) ↔ Accepts full P := by
  constructor
  · rintro ⟨es, h⟩
    exact accepts_of_pre (pre_of_init hfull h)
  · intro h
    obtain ⟨es, he⟩ := preprocess_of_accepts h
    refine ⟨es, ?_⟩
    unfold sliceInit
    rw [sliceExpand_ok hfull]
    exact he

/-- **C12** An index with at most one `Ellipsis` has an expansion unless it has too many entries, and then
the constructor raises `IndexError`. -/
theorem C12_too_many (raw : List RawIx) (P : List Nat)
    (hell : raw.countP (fun e => match e with | .ellipsis => true | _ => false) ≤ 1) :
    (∃ full, Expands raw P.length full) ∨
      (P.length < axesUsed raw ∧ sliceInit raw P = .error .indexError) := by
  by_cases h : axesUsed raw ≤ P.length
  · exact .inl (exists_colons raw _ h hell)
  · right
    refine ⟨by omega, ?_⟩
    have : ∀ b r, axesUsed r ≤ (ellipsisAsSlice b r).countP RawIx.uses := by
      intro b r
      induction r generalizing b with
      | nil => cases b <;> simp [axesUsed]
      | cons x r ih =>
        cases x with
        | ellipsis =>
          cases b
          · have := ih true
            simpa [ellipsisAsSlice, axesUsed, List.countP_cons, RawIx.uses] using this
          · have := ih true
            simp [ellipsisAsSlice, axesUsed, List.countP_cons, RawIx.uses]
            omega
        | int i =>
          have := ih b
          cases b <;> simpa [ellipsisAsSlice, axesUsed, List.countP_cons, RawIx.uses] using this
        | slice i =>
          have := ih b
          cases b <;> simpa [ellipsisAsSlice, axesUsed, List.countP_cons, RawIx.uses] using this
        | newaxis =>
          have := ih b
          cases b <;> simpa [ellipsisAsSlice, axesUsed, List.countP_cons, RawIx.uses] using this
    have := this false raw
    unfold sliceInit sliceExpand
    simp only []
    rw [if_pos (by omega)]
    rfl

/-- **C12** The plates of the result. -/
theorem C12_plates (hfull : Expands raw P.length full) (hinit : sliceInit raw P = .ok es) :
    ∃ C, slicePlates es P = .ok C ∧ IndexedShape full.reverse P.reverse C.reverse := by
  have hpre := pre_of_init hfull hinit
  refine ⟨_, slicePlates_ok hpre, ?_⟩
  rw [← platesOf_reverse]
  exact indexedShape_of_pre hpre.reverse

section
variable {α : Type} (dims : List Nat)

/-- **C12, partial** The moments of the result are the selected moments of the parent.  Missing: slices
with a negative step that reach the first position (`C12_reverse_refuted`). -/
theorem C12_moments_partial (hfull : Expands raw P.length full) (hinit : sliceInit raw P = .ok es)
    (hC : IndexedShape full.reverse P.reverse C.reverse)
    (hgood : ∀ a b k, Ix.slice a b k ∈ es → 0 < k ∨ 0 ≤ b)
    (u : Arr α) (hu : BroadcastsTo u.shape (P ++ dims)) :
    ∃ v, sliceMoments es dims u = .ok v ∧ BroadcastsTo v.shape (C ++ dims) ∧
      ∀ c p d, Picks full.reverse P.reverse c p →
        v.at (joinC dims.length d c) = u.at (joinC dims.length d p) := by
  have hpre := pre_of_init hfull hinit
  have hCe := plates_eq hpre hC
  rw [broadcastsTo_iff_bcR, List.reverse_append] at hu
  obtain ⟨hu1, hu2⟩ := bcR_split hu
  rw [List.length_reverse] at hu1 hu2
  obtain ⟨hl, vs, hv, hb, hc⟩ := moments_core hpre.reverse (GoodIx.reverse hgood) _ hu2
  have hS : (u.shape.take (u.shape.length - dims.length)).reverse = u.shape.reverse.drop dims.length := by
    rw [List.drop_reverse]
  have hD : dims.length ≤ u.shape.length ∨ momentIx es.reverse (u.shape.reverse.drop dims.length) = [] := by
    by_cases h : dims.length ≤ u.shape.length
    · exact .inl h
    · right
      rw [List.drop_of_length_le (by simp; omega), momentIx_nil]
  obtain ⟨V, hV, hVs, hVat⟩ := npGetItem_ok u _ dims.length hl hv hD
  refine ⟨V, ?_, ?_, fun c p d hp => hVat d c p (hc c p hp)⟩
  · unfold sliceMoments
    simp only [hS, hV]
  · rw [broadcastsTo_iff_bcR, hVs, List.reverse_append, hCe, ← platesOf_reverse]
    refine bcR_append hu1 ?_ hb
    rcases hD with h | h
    · left; simp [h]
    · right
      rw [h] at hl hv
      have h0 : u.shape.reverse.drop dims.length = [] := List.eq_nil_of_length_eq_zero hl.symm
      rw [h0] at hv
      exact (Except.ok.inj hv).symm

/-- **C12, partial** The message to the parent: each element of the child's message is put back to the
selected position, and all other elements are zero.  Missing: as for `C12_moments_partial`. -/
theorem C12_message_partial [Zero α] (hfull : Expands raw P.length full) (hinit : sliceInit raw P = .ok es)
    (hC : IndexedShape full.reverse P.reverse C.reverse)
    (hgood : ∀ a b k, Ix.slice a b k ∈ es → 0 < k ∨ 0 ≤ b)
    (m : Arr α) (hm : BroadcastsTo m.shape (C ++ dims)) :
    ∃ y, sliceMessage es P dims m = .ok y ∧ BroadcastsTo y.shape (P ++ dims) ∧
      ∀ p d, ValidIn P p → ValidIn dims d →
        (∀ c, Picks full.reverse P.reverse c p →
          y.at (joinC dims.length d p) = m.at (joinC dims.length d c)) ∧
        ((∀ c, ¬ Picks full.reverse P.reverse c p) → y.at (joinC dims.length d p) = 0) := by
  have hpre := pre_of_init hfull hinit
  have hCe := plates_eq hpre hC
  rw [broadcastsTo_iff_bcR, List.reverse_append] at hm
  obtain ⟨hm1, hm2⟩ := bcR_split hm
  rw [List.length_reverse] at hm1 hm2
  rw [hCe, ← platesOf_reverse] at hm2
  obtain ⟨h1, h2, h3, vs, ws, hv, hw, hb, hp⟩ := message_core hpre.reverse (GoodIx.reverse hgood) _ hm2
  have hS : (m.shape.take (m.shape.length - dims.length)).reverse = m.shape.reverse.drop dims.length := by
    rw [List.drop_reverse]
  set M := m.shape.reverse.drop dims.length with hM
  have hD : dims.length ≤ m.shape.length ∨ (reverseIx es.reverse M P.reverse).1 = [] := by
    by_cases h : dims.length ≤ m.shape.length
    · exact .inl h
    · right
      rw [hM, List.drop_of_length_le (by simp; omega), reverseIx_child_nil hpre.reverse]
  obtain ⟨V, hV, hVs, hVat⟩ := npGetItem_ok m _ dims.length h1 hv hD
  have hVb : BcR V.shape.reverse (dims.reverse ++ ws) := by
    rw [hVs]
    refine bcR_append hm1 ?_ hb
    rcases hD with h | h
    · left; simp [h]
    · right
      rw [h] at h1 hv
      have h0 : M = [] := List.eq_nil_of_length_eq_zero h1.symm
      rw [h0] at hv
      exact (Except.ok.inj hv).symm
  obtain ⟨Y, hY, hYs, hYat⟩ := npSetItem_ok _ dims _ V h2 hw hVb
  refine ⟨Y, ?_, ?_, fun p d hpv hdv => ?_⟩
  · unfold sliceMessage
    simp only [hS]
    rw [hV]
    exact hY
  · rw [broadcastsTo_iff_bcR, hYs, List.reverse_append, List.reverse_append, List.reverse_reverse]
    exact bcR_append (((broadcastsTo_iff_bcR _ _).1 (BroadcastsTo.refl _))) (.inl rfl) h3
  · have hpv' : ∀ k, p k < lenR P.reverse k := by
      intro k
      rw [← axisLen_reverse, List.reverse_reverse]
      exact hpv k
    obtain ⟨hpa, hpb⟩ := hp p hpv'
    obtain ⟨hya, hyb⟩ := hYat d p
    constructor
    · intro c hc
      obtain ⟨w, hw1, hw2⟩ := hpa c hc
      rw [hya w hw1, hVat _ w c hw2, restrict_of_valid hdv]
    · intro hno
      apply hyb
      by_contra hne
      obtain ⟨w, hw⟩ := Option.ne_none_iff_exists'.1 hne
      obtain ⟨c, hc⟩ := hpb w hw
      exact hno c hc

end

/-- **C12, partial** The mask sent to the parent (`_compute_weights_to_parent`): a plate of the parent is
active iff it is selected by an active plate of the child. -/
theorem C12_mask_partial (hfull : Expands raw P.length full) (hinit : sliceInit raw P = .ok es)
    (hC : IndexedShape full.reverse P.reverse C.reverse)
    (hgood : ∀ a b k, Ix.slice a b k ∈ es → 0 < k ∨ 0 ≤ b)
    (mask : Arr Nat) (hm : BroadcastsTo mask.shape C) :
    ∃ y, sliceMessage es P [] mask = .ok y ∧ BroadcastsTo y.shape P ∧
      ∀ p, ValidIn P p → (y.at p ≠ 0 ↔ ∃ c, Picks full.reverse P.reverse c p ∧ mask.at c ≠ 0) := by
  obtain ⟨y, hy, hyb, hyat⟩ := C12_message_partial [] hfull hinit hC hgood mask (by rwa [List.append_nil])
  rw [List.append_nil] at hyb
  refine ⟨y, hy, hyb, fun p hp => ?_⟩
  have hj : ∀ d c : Nat → Nat, joinC 0 d c = c := fun d c => by funext k; unfold joinC; simp
  obtain ⟨h1, h2⟩ := hyat p (fun _ => 0) hp (by intro k; simp [axisLen])
  simp only [List.length_nil, hj] at h1 h2
  constructor
  · intro hne
    by_contra hno
    apply hne
    by_cases hex : ∃ c, Picks full.reverse P.reverse c p
    · obtain ⟨c, hc⟩ := hex
      rw [h1 c hc]
      by_contra hne'
      exact hno ⟨c, hc, hne'⟩
    · exact h2 fun c hc => hex ⟨c, hc⟩
  · rintro ⟨c, hc, hmc⟩
    rw [h1 c hc]
    exact hmc

end

theorem joinC_one (t p : Nat → Nat) : joinC 1 t p = consC (t 0) p := by
  funext k
  cases k with
  | zero => rfl
  | succ k => simp [joinC, consC]

theorem sumOver_snoc {α : Type} [AddCommMonoid α] (P : List Nat) (d : Nat) (f : (Nat → Nat) → α) :
    sumOver (P ++ [d]) f = sumOver P fun p => ∑ t ∈ Finset.range d, f (consC t p) := by
  rw [sumOver_append]
  congr 1
  funext p
  rw [sumOver_singleton]
  apply Finset.sum_congr rfl
  intro t _
  simp only [List.length_singleton]
  rw [joinC_one]
  simp

/-- Sums over the selected elements. -/
theorem sum_picks {α : Type} [AddCommMonoid α] {r P e} (h : Pre r P e) (F G : (Nat → Nat) → α)
    (hpick : ∀ c p, (∀ k, c k < lenR (platesOf e) k) → (∀ k, p k < lenR P k) → Picks r P c p → F c = G p)
    (hzero : ∀ p, (∀ k, p k < lenR P k) → (∀ c, ¬ Picks r P c p) → G p = 0) :
    sumOver (platesOf e).reverse F = sumOver P.reverse G := by
  have hcons : ∀ {s : List Nat} {d t : Nat} {p : Nat → Nat}, t < d → (∀ k, p k < lenR s k) →
      ∀ k, consC t p k < lenR (d :: s) k := by
    intro s d t p ht hp k
    cases k with
    | zero => simpa [lenR, consC] using ht
    | succ k => simpa [lenR, consC] using hp k
  have hidx : ∀ {s : List Nat} {i : List Nat}, i ∈ indices s.reverse → ∀ k, coord i k < lenR s k := by
    intro s i hi k
    have := coord_valid hi k
    rwa [axisLen_reverse] at this
  induction h generalizing F G with
  | nil =>
    simp only [platesOf, List.reverse_nil, sumOver_nil]
    exact hpick _ _ (by simp [lenR, platesOf]) (by simp [lenR]) trivial
  | @int r P e i d t ht hn hpre ih =>
    rw [List.reverse_cons, sumOver_snoc]
    simp only [platesOf]
    rw [ih F (fun p => G (consC t p))]
    · apply sumOver_congr
      intro q hq
      rw [Finset.sum_eq_single t]
      · intro t' ht' hne
        apply hzero _ (hcons (Finset.mem_range.1 ht') (hidx hq))
        rintro c ⟨h0, h1, _⟩
        simp only [consC_zero] at h0 h1
        unfold Names at hn h1
        omega
      · intro hh
        exact absurd (Finset.mem_range.2 ht) hh
    · intro c p hcv hpv hp
      exact hpick _ _ hcv (hcons ht hpv) ⟨ht, hn, hp⟩
    · intro p hpv hno
      apply hzero _ (hcons ht hpv)
      rintro c ⟨_, _, hc⟩
      exact hno c hc
  | @slice r P e s d a b k hs hlen hpre ih =>
    have hk := (sliceIndices_facts hs).1
    rw [List.reverse_cons, sumOver_snoc]
    simp only [platesOf, List.reverse_cons]
    rw [sumOver_snoc, sumOver_sum]
    have hi : ∀ i ∈ Finset.range (sliceLenN a b k),
        sumOver (platesOf e).reverse (fun c => F (consC i c)) =
          sumOver P.reverse fun p => G (consC (a + i * k).toNat p) := by
      intro i hi
      rw [Finset.mem_range] at hi
      have hir := item_range hs hi
      have hitem : IsItem s d i (a + i * k).toNat := (isItem_iff hs _ _).2 ⟨hi, by omega⟩
      apply ih
      · intro c p hcv hpv hp
        exact hpick _ _ (hcons hi hcv) (hcons (by omega) hpv) ⟨hitem, hp⟩
      · intro p hpv hno
        apply hzero _ (hcons (by omega) hpv)
        rintro c ⟨_, hc⟩
        exact hno _ hc
    rw [Finset.sum_congr rfl hi, ← sumOver_sum]
    apply sumOver_congr
    intro q hq
    have hinj : ∀ i ∈ Finset.range (sliceLenN a b k), ∀ j ∈ Finset.range (sliceLenN a b k),
        (a + i * k).toNat = (a + j * k).toNat → i = j := by
      intro i hi j hj hij
      have h1 := item_range hs (Finset.mem_range.1 hi)
      have h2 := item_range hs (Finset.mem_range.1 hj)
      have : (i : Int) * k = j * k := by omega
      have := Int.eq_of_mul_eq_mul_right hk this
      omega
    rw [← Finset.sum_image (f := fun t => G (consC t (coord q))) hinj]
    apply Finset.sum_subset
    · intro t ht
      rw [Finset.mem_image] at ht
      obtain ⟨i, hi, rfl⟩ := ht
      have h1 := item_range hs (Finset.mem_range.1 hi)
      rw [Finset.mem_range]
      omega
    · intro t ht hno
      apply hzero _ (hcons (Finset.mem_range.1 ht) (hidx hq))
      rintro c ⟨hc, _⟩
      obtain ⟨hc1, hc2⟩ := (isItem_iff hs _ _).1 hc
      simp only [consC_zero] at hc2
      exact hno (Finset.mem_image.2 ⟨c 0, Finset.mem_range.2 hc1, by omega⟩)
  | @newaxis r P e hpre ih =>
    simp only [platesOf, List.reverse_cons]
    rw [sumOver_snoc]
    simp only [Finset.sum_range_one]
    apply ih
    · intro c p hcv hpv hp
      exact hpick _ _ (hcons (by omega) hcv) hpv ⟨rfl, hp⟩
    · intro p hpv hno
      apply hzero _ hpv
      rintro c ⟨_, hc⟩
      exact hno _ hc

/-- **C12, partial** The message to the parent is the adjoint of the selection of moments:
`<m_child, u_child> = <m_parent, u_parent>`.  Missing: as for `C12_moments_partial`. -/
theorem C12_adjoint_partial {α : Type} [CommSemiring α] (dims : List Nat) {raw full : List RawIx}
    {P C : List Nat} {es : List Ix} (hfull : Expands raw P.length full) (hinit : sliceInit raw P = .ok es)
    (hC : IndexedShape full.reverse P.reverse C.reverse)
    (hgood : ∀ a b k, Ix.slice a b k ∈ es → 0 < k ∨ 0 ≤ b)
    (u m : Arr α) (hu : BroadcastsTo u.shape (P ++ dims)) (hm : BroadcastsTo m.shape (C ++ dims)) :
    ∃ v y, sliceMoments es dims u = .ok v ∧ sliceMessage es P dims m = .ok y ∧
      sumOver (C ++ dims) (fun c => m.at c * v.at c) = sumOver (P ++ dims) fun c => y.at c * u.at c := by
  obtain ⟨v, hv, _, hvat⟩ := C12_moments_partial dims hfull hinit hC hgood u hu
  obtain ⟨y, hy, _, hyat⟩ := C12_message_partial dims hfull hinit hC hgood m hm
  refine ⟨v, y, hv, hy, ?_⟩
  have hpre := pre_of_init hfull hinit
  have hCe := plates_eq hpre hC
  have hPv : ∀ p : Nat → Nat, (∀ k, p k < lenR P.reverse k) → ValidIn P p := by
    intro p hp k
    have := hp k
    rwa [← axisLen_reverse, List.reverse_reverse] at this
  rw [sumOver_append, sumOver_append]
  have key := sum_picks hpre.reverse
    (fun c => sumOver dims fun d => m.at (joinC dims.length d c) * v.at (joinC dims.length d c))
    (fun p => sumOver dims fun d => y.at (joinC dims.length d p) * u.at (joinC dims.length d p)) ?_ ?_
  · rwa [platesOf_reverse, List.reverse_reverse, List.reverse_reverse, ← hCe] at key
  · intro c p _ hp hcp
    apply sumOver_congr
    intro i hi
    rw [hvat c p _ hcp, (hyat p _ (hPv p hp) (coord_valid hi)).1 c hcp]
  · intro p hp hno
    rw [← sumOver_zero dims (α := α)]
    apply sumOver_congr
    intro i hi
    rw [(hyat p _ (hPv p hp) (coord_valid hi)).2 hno, zero_mul]

/-- **C12 refuted for reversed axes**: for `X[::-1]` with plates `(n,)`, `n ≥ 1`, the node has the plates
`(n,)`, but its moments have an empty axis. -/
theorem C12_reverse_refuted (n : Nat) (hn : 0 < n) :
    ∃ es, sliceInit [.slice ⟨none, none, some (-1)⟩] [n] = .ok es ∧ slicePlates es [n] = .ok [n] ∧
      ∀ u : Arr Nat, u.shape = [n] → n ≠ 1 → ∃ v, sliceMoments es [] u = .ok v ∧ v.shape = [0] := by
  have hfull : Expands [.slice ⟨none, none, some (-1)⟩] [n].length [.slice ⟨none, none, some (-1)⟩] :=
    ⟨rfl, .inl ⟨by simp, 0, rfl⟩⟩
  have hidx : sliceIndices ⟨none, none, some (-1)⟩ n = .ok ((n : Int) - 1, -1, -1) := rfl
  have hlen : sliceLenN ((n : Int) - 1) (-1) (-1) = n := by
    apply ((hasItems_iff hidx n).1 _).symm
    intro i
    constructor
    · intro hi
      exact ⟨n - 1 - i, (n : Int) - 1, -1, -1, hidx, by omega, by simp; omega⟩
    · rintro ⟨t, a, b, k, h, ht, _⟩
      rw [hidx] at h
      cases h
      omega
  have hinit : sliceInit [.slice ⟨none, none, some (-1)⟩] [n] = .ok [.slice ((n : Int) - 1) (-1) (-1)] := by
    unfold sliceInit
    rw [sliceExpand_ok hfull]
    show slicePreprocess _ _ = _
    rw [slicePreprocess_slice, hidx]
    simp only [hlen]
    rw [if_neg (by omega)]
    rfl
  refine ⟨_, hinit, ?_, fun u hu hn1 => ?_⟩
  · have := slicePlates_ok (pre_of_init hfull hinit)
    simpa [platesOf, hlen] using this
  · have hnp : npSlice ((n : Int) - 1) (-1) (-1) n = .ok ((n : Int) - 1, 0, -1) := by
      have h1 : sliceIndices ⟨some ((n : Int) - 1), some (-1), some (-1)⟩ n =
          .ok ((n : Int) - 1, (n : Int) - 1, -1) := by
        show Except.ok (sliceBound n (-1) ((n : Int) - 1) ((n : Int) - 1),
          sliceBound n (-1) ((n : Int) - 1) (-1), (-1 : Int)) = _
        have e1 : sliceBound n (-1) ((n : Int) - 1) ((n : Int) - 1) = (n : Int) - 1 := by
          unfold sliceBound
          split <;> omega
        have e2 : sliceBound n (-1) ((n : Int) - 1) (-1) = (n : Int) - 1 := by
          unfold sliceBound
          split <;> omega
        rw [e1, e2]
      unfold npSlice
      rw [h1]
      show Except.ok ((n : Int) - 1, sliceLenN ((n : Int) - 1) ((n : Int) - 1) (-1), (-1 : Int)) = _
      have : sliceLenN ((n : Int) - 1) ((n : Int) - 1) (-1) = 0 := by
        unfold sliceLenN
        simp
      rw [this]
    have hix : momentIx [Ix.slice ((n : Int) - 1) (-1) (-1)] [n] = [NIx.slice ((n : Int) - 1) (-1) (-1)] := by
      simp [momentIx, hn1]
    obtain ⟨V, hV, hVs, _⟩ := npGetItem_ok u [NIx.slice ((n : Int) - 1) (-1) (-1)] 0 (vs := [0])
      (by rw [hu]; rfl) (by rw [hu]; simp only [List.reverse_singleton, List.drop_zero, nviewShape, hnp]; rfl)
      (.inl (by omega))
    refine ⟨V, ?_, ?_⟩
    · unfold sliceMoments
      simp only [hu, List.length_singleton, List.length_nil, Nat.sub_zero, List.take_succ_cons, List.take_zero,
        List.reverse_singleton, hix]
      exact hV
    · have := congrArg List.reverse hVs
      simpa using this

/-- Plates `(3, 4)`, `X[..., 1::2, None]`, a message that is broadcast over the first axis. -/
example : Expands [.ellipsis, .slice ⟨some 1, none, some 2⟩, .newaxis] 2
      [colon, .slice ⟨some 1, none, some 2⟩, .newaxis] ∧
    sliceInit [.ellipsis, .slice ⟨some 1, none, some 2⟩, .newaxis] [3, 4] =
      .ok [.slice 0 3 1, .slice 1 4 2, .newaxis] ∧
    slicePlates [.slice 0 3 1, .slice 1 4 2, .newaxis] [3, 4] = .ok [3, 2, 1] ∧
    (match sliceMessage [.slice 0 3 1, .slice 1 4 2, .newaxis] [3, 4] [] (⟨[2, 1], fun c => 5 + c 1⟩ : Arr Nat) with
      | .ok y => (y.shape, (indices [1, 4]).map fun i => y.get (coord i))
      | .error _ => ([], [])) = ([1, 4], [0, 5, 0, 6]) ∧
    (match sliceMoments [.slice 0 3 1, .slice 1 4 2, .newaxis] [] (⟨[3, 4], fun c => 10 * c 1 + c 0⟩ : Arr Nat) with
      | .ok y => (y.shape, (indices [3, 2, 1]).map fun i => y.get (coord i))
      | .error _ => ([], [])) = ([3, 2, 1], [1, 3, 11, 13, 21, 23]) := by
  refine ⟨⟨rfl, .inr ⟨[], _, 1, rfl, by simp, by simp, rfl⟩⟩, ?_, ?_, ?_, ?_⟩ <;> decide +kernel

/-- `X[-1, 2:0:-1]` with plates `(2, 4)` -/
example : sliceInit [.int (-1), .slice ⟨some 2, some 0, some (-1)⟩] [2, 4] = .ok [.int 1, .slice 2 0 (-1)] ∧
    (∀ a b k, Ix.slice a b k ∈ [Ix.int 1, Ix.slice 2 0 (-1)] → 0 < k ∨ 0 ≤ b) ∧
    (match sliceMessage [.int 1, .slice 2 0 (-1)] [2, 4] [] (⟨[2], fun c => 5 + c 0⟩ : Arr Nat) with
      | .ok y => (y.shape, (indices [2, 4]).map fun i => y.get (coord i))
      | .error _ => ([], [])) = ([2, 4], [0, 0, 0, 0, 0, 6, 5, 0]) := by
  refine ⟨by decide +kernel, ?_, by decide +kernel⟩
  intro a b k h
  simp at h
  omega

end Verif
