import Verif.Lemmas.KeyedMessage
import Verif.Props.SumMultiplyMoments
import Verif.Props.SumMultiply
import Verif.Props.Mixture
import Verif.Props.ConcatGaussian

/-!
# C18: the messages of `SumMultiply`
-/

namespace Verif
open Spec Function Sum

attribute [-instance] Sum.instBEq

section
variable {κ α : Type} [DecidableEq κ] [CommSemiring α]

/-- The plates of an operand with the given keys. -/
def opPlates (op : Arr α × List κ) : List Nat := op.1.shape.take (op.1.shape.length - op.2.length)

/-- The shape of the variable axes of an operand. -/
def opDims (op : Arr α × List κ) : List Nat := op.1.shape.drop (op.1.shape.length - op.2.length)

/-- The element of an operand at the plate `p` and the assignment `e`. -/
def opElem (op : Arr α × List κ) (p : Nat → Nat) (e : κ → Nat) : α :=
  op.1.at (joinC op.2.length (coord (op.2.map e)) p)

theorem foldlM_broadcast (ps : List (List Nat)) (r R : List Nat) (h : IsBroadcast (r :: ps) R) :
    ps.foldlM (fun r p => broadcastedShape [r, p]) r = .ok R := by
  induction ps generalizing r with
  | nil =>
    have h' : IsBroadcast [r] r := ⟨by simp, .inr ⟨r, by simp, rfl⟩, by simp, fun k => .inr ⟨r, by simp, rfl⟩⟩
    rw [isBroadcast_unique h h']
    rfl
  | cons p ps ih =>
    obtain ⟨g, hg⟩ := (exists_isBroadcast_iff [r, p]).2 (by
      intro k s hs t ht
      have h1 := h.fits k s (by simp at hs ⊢; tauto)
      have h2 := h.fits k t (by simp at ht ⊢; tauto)
      omega)
    rw [List.foldlM_cons, (broadcastedShape_ok _ _).2 hg]
    exact ih g ((isBroadcast_group hg R).2 h)

theorem isBroadcast_cons_of {mask R : List Nat} {ps : List (List Nat)} (hR : IsBroadcast ps R)
    (hm : BroadcastsTo mask R) : IsBroadcast (mask :: ps) R := by
  refine ⟨?_, ?_, ?_, ?_⟩
  · intro s hs
    rcases List.mem_cons.1 hs with rfl | hs
    · exact hm.1
    · exact hR.rank_ge s hs
  · rcases hR.rank_le with h | ⟨s, hs, h⟩
    · exact .inl h
    · exact .inr ⟨s, by simp [hs], h⟩
  · intro k s hs
    rcases List.mem_cons.1 hs with rfl | hs
    · exact hm.2 k
    · exact hR.fits k s hs
  · intro k
    rcases hR.attained k with h | ⟨s, hs, h⟩
    · exact .inl h
    · exact .inr ⟨s, by simp [hs], h⟩

omit [DecidableEq κ] in
theorem drop_axisNames (n m : Nat) (ks : List κ) :
    (axisNames n ks).drop (n - m) = axisNames (min n m) ks := by
  unfold axisNames plateNames
  rw [List.drop_append_of_le_length (by simp)]
  congr 1
  rw [← List.map_drop]
  congr 1
  rw [List.drop_reverse, List.length_range, List.take_range]
  congr 2
  omega

theorem map_getD_idxOf (ks : List κ) (ds : List Nat) (hnd : ks.Nodup) (h : ds.length = ks.length) :
    ks.map (fun k => ds.getD (ks.idxOf k) 1) = ds := by
  apply List.ext_getElem
  · simp [h]
  · intro i h1 h2
    simp only [List.length_map] at h1
    rw [List.getElem_map, hnd.idxOf_getElem, List.getD_eq_getElem?_getD, List.getElem?_eq_getElem h2]
    rfl

/-- One message of `SumMultiply`, for operands whose axes are named by keys: paired with any moments `U`
of the parent, the message gives the sum of the product of all operands and `U` over all plates of the
node and all positions of the keys. -/
theorem smMessageArray_adjoint (N : Nat) (ℓ size : κ → Nat) (args : List (Arr α × List κ))
    (mask S R PP pdims : List Nat) (pkeys K : List κ)
    (hℓ : ∀ k ∈ K, ℓ k ≤ N) (hinj : ∀ a ∈ K, ∀ b ∈ K, ℓ a = ℓ b → a = b) (hKnd : K.Nodup)
    (hargs : ∀ op ∈ args, ∀ k ∈ op.2, k ∈ K) (hpK : ∀ k ∈ pkeys, k ∈ K)
    (hdim : ∀ op ∈ args, op.2.length ≤ op.1.shape.length)
    (hR : IsBroadcast (args.map opPlates) R) (hmask : BroadcastsTo mask R)
    (hRS : BroadcastsTo R S) (hPS : BroadcastsTo PP S)
    (hfit : ∀ op ∈ args, ∀ p ∈ op.2.zip (opDims op), p.2 = 1 ∨ p.2 = size p.1)
    (hpd : pdims.length = pkeys.length) (hpnd : pkeys.Nodup)
    (hpfit : ∀ p ∈ pkeys.zip pdims, p.2 = 1 ∨ p.2 = size p.1)
    (hatt : ∀ k ∈ K, size k = 1 ∨ (k, size k) ∈ pkeys.zip pdims ∨
      ∃ op ∈ args, (k, size k) ∈ op.2.zip (opDims op)) :
    ∃ msg Q, smMessageArray N mask (args.map fun op => (op.1, op.2.map ℓ)) (pkeys.map ℓ) PP pdims S
        = .ok msg ∧ msg.shape = Q ++ pdims ∧ BroadcastsTo Q PP ∧
      ∀ U : Arr α, BroadcastsTo U.shape (PP ++ pdims) →
        sumOver (PP ++ pdims) (fun c => msg.at c * U.at c)
          = sumOver S fun p => sumKeys (K.map fun k => (k, size k)) (fun e =>
              (args.map fun op => opElem op p e).prod * opElem (U, pkeys) p e) (fun _ => 0) := by
  classical
  -- names
  set pc : Arr α × List κ → Nat := fun op => op.1.shape.length - op.2.length with hpc
  set ops : List (Arr α × List (Nat ⊕ κ)) := args.map fun op => (op.1, axisNames (pc op) op.2) with hops
  set lab : Nat ⊕ κ → Nat := axisLabel (N + 1) ℓ with hlab
  set Λ : Nat ⊕ κ → Nat := fun l => match l with
    | inl j => axisLen S j
    | inr k => size k with hΛ
  set a : Nat ⊕ κ → Nat := fun l => match l with
    | inl j => axisLen R j
    | inr k => if ∃ op ∈ args, (k, size k) ∈ op.2.zip (opDims op) then size k else 1 with ha
  set plen : Nat ⊕ κ → Nat := fun l => match l with
    | inl j => axisLen PP j
    | inr k => pdims.getD (pkeys.idxOf k) 1 with hplen
  set pn : List (Nat ⊕ κ) := axisNames PP.length pkeys with hpn
  set T : List (Nat ⊕ κ) := axisNames S.length K with hT
  have hpnnd : pn.Nodup := nodup_axisNames hpnd
  have hTnd : T.Nodup := nodup_axisNames hKnd
  have hpsub : ∀ l ∈ pn, l ∈ T := by
    rintro (j | k) hl
    · rw [hpn, mem_axisNames_inl] at hl
      rw [hT, mem_axisNames_inl]
      exact lt_of_lt_of_le hl hPS.1
    · rw [hpn, mem_axisNames_inr] at hl
      rw [hT, mem_axisNames_inr]
      exact hpK k hl
  have hsplit : ∀ op : Arr α × List κ, op.1.shape = opPlates op ++ opDims op :=
    fun op => (List.take_append_drop _ _).symm
  have hpl : ∀ op : Arr α × List κ, (opPlates op).length = pc op := by
    intro op
    simp [opPlates, hpc]
  have hzip : ∀ op ∈ args, ∀ l d, (l, d) ∈ (axisNames (pc op) op.2).zip op.1.shape ↔
      match l with
      | inl j => j < pc op ∧ d = axisLen (opPlates op) j
      | inr k => (k, d) ∈ op.2.zip (opDims op) := by
    intro op _ l d
    rw [hsplit op, ← hpl op]
    exact mem_zip_axisNames
  have hopsT : ∀ op ∈ ops, ∀ l ∈ op.2, l ∈ T := by
    intro op hop l hl
    obtain ⟨op', hop', rfl⟩ := List.mem_map.1 hop
    rcases l with j | k
    · simp only [mem_axisNames_inl] at hl
      rw [hT, mem_axisNames_inl]
      have := hR.rank_ge _ (List.mem_map_of_mem hop')
      rw [hpl] at this
      have := hRS.1
      omega
    · simp only [mem_axisNames_inr] at hl
      rw [hT, mem_axisNames_inr]
      exact hargs _ hop' k hl
  have hlabinj : ∀ l ∈ T, ∀ l' ∈ T, lab l = lab l' → l = l' := by
    intro l hl l' hl' h
    rcases l with j | k <;> rcases l' with j' | k' <;> simp only [hlab, axisLabel] at h
    · congr 1; omega
    · rw [hT, mem_axisNames_inr] at hl'
      have := hℓ _ hl'
      omega
    · rw [hT, mem_axisNames_inr] at hl
      have := hℓ _ hl
      omega
    · rw [hT, mem_axisNames_inr] at hl hl'
      rw [hinj k hl k' hl' h]
  have hfit' : ∀ op ∈ ops, ∀ p ∈ op.2.zip op.1.shape, p.2 = 1 ∨ p.2 = a p.1 := by
    intro op hop p hp
    obtain ⟨op', hop', rfl⟩ := List.mem_map.1 hop
    obtain ⟨l, d⟩ := p
    have hp' := (hzip op' hop' l d).1 hp
    rcases l with j | k
    · simp only at hp' ⊢
      rw [hp'.2]
      exact hR.fits j _ (List.mem_map_of_mem hop')
    · simp only at hp' ⊢
      rcases hfit op' hop' _ hp' with h | h
      · exact .inl h
      · right
        simp only at h
        simp only [ha]
        rw [if_pos ⟨op', hop', h ▸ hp'⟩, h]
  have hused : ∀ l, a l ≠ 1 → ∃ op ∈ ops, (l, a l) ∈ op.2.zip op.1.shape := by
    rintro (j | k) hl
    · rcases hR.attained j with h | ⟨s, hs, h⟩
      · exact absurd h hl
      · obtain ⟨op, hop, rfl⟩ := List.mem_map.1 hs
        refine ⟨_, List.mem_map_of_mem hop, (hzip op hop _ _).2 ⟨?_, h.symm⟩⟩
        by_contra hj
        rw [axisLen_of_ge (by rw [hpl]; omega)] at h
        exact hl h.symm
    · by_cases hex : ∃ op ∈ args, (k, size k) ∈ op.2.zip (opDims op)
      · obtain ⟨op, hop, h⟩ := hex
        refine ⟨_, List.mem_map_of_mem hop, (hzip op hop _ _).2 ?_⟩
        have : a (inr k) = size k := by
          simp only [ha]
          rw [if_pos ⟨op, hop, h⟩]
        rw [this]
        exact h
      · exact absurd (by simp only [ha]; rw [if_neg hex]) hl
  have haΛ : ∀ l, a l ≠ 1 → l ∈ T ∧ a l = Λ l := by
    intro l hl
    obtain ⟨op, hop, h⟩ := hused l hl
    refine ⟨hopsT op hop l (List.of_mem_zip h).1, ?_⟩
    rcases l with j | k
    · simp only [ha, hΛ] at hl ⊢
      rcases hRS.2 j with h | h
      · exact absurd h hl
      · exact h
    · simp only [ha, hΛ] at hl ⊢
      split at hl
      · rename_i h; rw [if_pos h]
      · exact absurd rfl hl
  have hplenΛ : ∀ l ∈ pn, plen l = 1 ∨ plen l = Λ l := by
    rintro (j | k) hl
    · exact hPS.2 j
    · rw [hpn, mem_axisNames_inr] at hl
      have hi := List.idxOf_lt_length_of_mem hl
      have hmem : (k, pdims.getD (pkeys.idxOf k) 1) ∈ pkeys.zip pdims := by
        rw [List.mem_iff_getElem]
        refine ⟨pkeys.idxOf k, by simp; omega, ?_⟩
        rw [List.getElem_zip, List.getElem_idxOf hi, List.getD_eq_getElem?_getD,
          List.getElem?_eq_getElem (by omega)]
        rfl
      exact hpfit _ hmem
  have hpnmap : pn.map plen = PP ++ pdims := by
    rw [hpn]
    unfold axisNames plateNames
    rw [List.map_append, List.map_map, List.map_map]
    congr 1
    · exact (eq_map_axisLen PP).symm
    · exact map_getD_idxOf pkeys pdims hpnd hpd
  have hlabmap : pn.map lab = plateLabels (N + 1) PP.length ++ pkeys.map ℓ := map_axisLabel _ _ _ _
  -- the kept axes
  set isUsed : Nat ⊕ κ → Prop := fun l => ∃ op ∈ ops, l ∈ op.2 with hisUsed
  set q : Nat ⊕ κ → Bool := fun l => decide (plen l ≠ 1 ∧ isUsed l) with hq
  set labelled : List (Arr α × List Nat) := ops.map fun op => (op.1, op.2.map lab) with hlabelled
  have hlabelled' : ((args.map fun op => (op.1, op.2.map ℓ)).map fun x =>
      (x.1, plateLabels (N + 1) (x.1.shape.length - x.2.length) ++ x.2)) = labelled := by
    rw [hlabelled, hops, List.map_map, List.map_map]
    apply List.map_congr_left
    intro op _
    simp only [Function.comp, List.length_map, hlab, map_axisLabel]
    rfl
  set keep : Nat × Nat → Bool := fun x => x.2 != 1 && labelled.any fun a => decide (x.1 ∈ a.2) with hkeep
  have hkq : ∀ l ∈ pn, keep (lab l, plen l) = q l := by
    intro l hl
    simp only [hkeep, hq, Bool.decide_and]
    congr 1
    · by_cases h : plen l = 1 <;> simp [h]
    · rw [Bool.eq_iff_iff, List.any_eq_true, decide_eq_true_iff]
      constructor
      · rintro ⟨x, hx, h⟩
        obtain ⟨op, hop, rfl⟩ := List.mem_map.1 hx
        rw [decide_eq_true_iff] at h
        obtain ⟨l', hl', he⟩ := List.mem_map.1 h
        have := hlabinj l' (hopsT op hop l' hl') l (hpsub l hl) he
        subst this
        exact ⟨op, hop, hl'⟩
      · rintro ⟨op, hop, h⟩
        exact ⟨_, List.mem_map_of_mem hop, by rw [decide_eq_true_iff]; exact List.mem_map_of_mem h⟩
  have haxes : (plateLabels (N + 1) PP.length ++ pkeys.map ℓ).zip (PP ++ pdims)
      = pn.map fun l => (lab l, plen l) := by
    rw [← hlabmap, ← hpnmap, List.zip_map']
  have hkept : ((pn.map fun l => (lab l, plen l)).filter keep).map (·.1) = (pn.filter q).map lab := by
    rw [List.filter_map, List.map_map]
    have : pn.filter (keep ∘ fun l => (lab l, plen l)) = pn.filter q :=
      List.filter_congr fun l hl => hkq l hl
    rw [this]
    rfl
  have hremoved : ((pn.map fun l => (lab l, plen l)).zipIdx.filter fun x => !keep x.1).map (·.2)
      = (pn.zipIdx.filter fun x => !q x.1).map (·.2) := by
    rw [List.zipIdx_map, List.filter_map, List.map_map]
    have : pn.zipIdx.filter ((fun x : (Nat × Nat) × Nat => !keep x.1) ∘ Prod.map (fun l => (lab l, plen l)) id)
        = pn.zipIdx.filter fun x => !q x.1 := by
      apply List.filter_congr
      rintro ⟨l, i⟩ hx
      have hl : l ∈ pn := by
        have := List.mem_zipIdx hx
        rw [this.2.2]
        exact List.getElem_mem _
      simp only [Function.comp, Prod.map, hkq l hl]
    rw [this]
    rfl
  set A : List (Nat ⊕ κ) := (ops.flatMap (·.2)).dedup.filter (· ∉ pn.filter q) with hA
  have hAmem : ∀ l, l ∈ A ↔ isUsed l ∧ l ∉ pn.filter q := by
    intro l
    rw [hA, List.mem_filter, List.mem_dedup, List.mem_flatMap, decide_eq_true_iff]
  have hAnd : A.Nodup := (List.nodup_dedup _).filter _
  obtain ⟨y, hy, hysh, hyat⟩ := npEinsum_keyed ops (pn.filter q) lab a A
    (fun l l' ⟨op, hop, h⟩ ⟨op', hop', h'⟩ he =>
      hlabinj l (hopsT op hop l h) l' (hopsT op' hop' l' h') he)
    (by
      intro op hop
      obtain ⟨op', hop', rfl⟩ := List.mem_map.1 hop
      rw [length_axisNames]
      have := hdim op' hop'
      simp only [hpc]
      omega) hfit' (by
      intro l _
      by_cases h : a l = 1
      · exact .inl h
      · exact .inr (hused l h))
    (hpnnd.filter _) (by
      intro l hl
      have := (List.mem_filter.1 hl).2
      simp only [hq, decide_eq_true_iff] at this
      exact this.2) hAnd hAmem
  set F : (Nat ⊕ κ → Nat) → α := fun e => (ops.map fun op => op.1.at (coord (op.2.map e))).prod with hF
  -- the reshaped array
  have hrn : (((args.map fun op => (op.1, op.2.map ℓ)).map fun x =>
      x.1.shape.take (x.1.shape.length - x.2.length)).map List.length).foldl max mask.length = R.length := by
    apply foldl_max_eq
    · exact hmask.1
    · intro x hx
      simp only [List.map_map, List.mem_map] at hx
      obtain ⟨op, hop, rfl⟩ := hx
      have := hR.rank_ge _ (List.mem_map_of_mem hop)
      simpa [opPlates] using this
    · rcases hR.rank_le with h | ⟨s, hs, h⟩
      · left
        have := hmask.1
        omega
      · right
        obtain ⟨op, hop, rfl⟩ := List.mem_map.1 hs
        rw [← h]
        simp only [List.map_map, List.mem_map]
        exact ⟨op, hop, by simp [opPlates]⟩
  set ls : List (Nat ⊕ κ) := axisNames (min PP.length R.length) pkeys with hls
  have hlsdrop : pn.drop (PP.length - R.length) = ls := drop_axisNames _ _ _
  have hlsnd : ls.Nodup := nodup_axisNames hpnd
  have hlsq : pn.filter q = ls.filter q := by
    rw [← hlsdrop]
    conv_lhs => rw [← List.take_append_drop (PP.length - R.length) pn]
    rw [List.filter_append]
    have : (pn.take (PP.length - R.length)).filter q = [] := by
      rw [List.filter_eq_nil_iff]
      intro l hl hql
      simp only [hq, decide_eq_true_iff] at hql
      obtain ⟨op, hop, h⟩ := hql.2
      obtain ⟨op', hop', rfl⟩ := List.mem_map.1 hop
      have hlp : l ∈ (pn.drop (PP.length - R.length)) := by
        rw [hlsdrop, hls]
        rcases l with j | k
        · have hjp : j < PP.length := by
            have := List.mem_of_mem_take hl
            rwa [hpn, mem_axisNames_inl] at this
          simp only [mem_axisNames_inl] at h ⊢
          have := hR.rank_ge _ (List.mem_map_of_mem hop')
          rw [hpl] at this
          omega
        · have := List.mem_of_mem_take hl
          rw [hpn, mem_axisNames_inr] at this
          rw [mem_axisNames_inr]
          exact this
      have hdis := List.disjoint_take_drop hpnnd (le_refl (PP.length - R.length))
      exact hdis hl hlp
    rw [this, List.nil_append]
  have hshape : (if PP.length > R.length then
      (((pn.zipIdx.filter fun x => !q x.1).map (·.2)).foldl (fun s ax => pyInsert s ax 1) y.shape).drop
        (PP.length - R.length)
      else ((pn.zipIdx.filter fun x => !q x.1).map (·.2)).foldl (fun s ax => pyInsert s ax 1) y.shape)
      = ls.map fun l => if q l then a l else 1 := by
    have h1 := insert_removed q a pn []
    simp only [List.nil_append, List.length_nil] at h1
    rw [hysh, h1, ← hlsdrop, List.map_drop]
    split
    · rfl
    · rw [show PP.length - R.length = 0 by omega, List.drop_zero]
  obtain ⟨z, hz, hzsh, hzat⟩ := reshape_names q a ls (y := y) (by rw [hysh, hlsq])
  have hzlen : z.shape.length = min PP.length R.length + pkeys.length := by
    rw [hzsh, List.length_map, length_axisNames]
  -- the axes of `z`
  have hlsax : ∀ i, i < ls.length → axisLen z.shape i = 1 ∨
      axisLen z.shape i = axisLen (PP ++ pdims) i := by
    intro i hi
    rw [hzsh, axisLen_map_len _ _ _ hi]
    have hlen2 : ls.length ≤ pn.length := by
      rw [← hlsdrop]; simp
    rw [← hpnmap, axisLen_map_len _ _ _ (by omega)]
    have hname : ls[ls.length - 1 - i]'(by omega) = pn[pn.length - 1 - i]'(by omega) := by
      have : ∀ (m : List (Nat ⊕ κ)) (hm : m = ls) (h : m.length - 1 - i < m.length),
          m[m.length - 1 - i] = ls[ls.length - 1 - i]'(by omega) := by
        rintro m rfl h; rfl
      have hd := this _ hlsdrop (by rw [hlsdrop]; omega)
      rw [← hd, List.getElem_drop]
      congr 1
      rw [List.length_drop]
      have : ls.length = pn.length - (PP.length - R.length) := by rw [← hlsdrop]; simp
      omega
    rw [hname]
    set l := pn[pn.length - 1 - i]'(by omega) with hl
    have hlp : l ∈ pn := List.getElem_mem _
    by_cases hql : q l = true
    · rw [if_pos hql]
      by_cases hal : a l = 1
      · exact .inl hal
      · right
        have h1 := (haΛ l hal).2
        simp only [hq, decide_eq_true_iff] at hql
        rcases hplenΛ l hlp with h | h
        · exact absurd h hql.1
        · rw [h1, h]
    · rw [if_neg hql]
      exact .inl rfl
  have hzB : BroadcastsTo z.shape (PP ++ pdims) := by
    refine ⟨?_, ?_⟩
    · rw [hzlen, List.length_append, hpd]
      omega
    · intro i
      by_cases hi : i < ls.length
      · exact hlsax i hi
      · left
        apply axisLen_of_ge
        rw [hzsh, List.length_map]
        omega
  have h1B : BroadcastsTo pdims (PP ++ pdims) := by
    refine ⟨by simp, fun k => ?_⟩
    rw [axisLen_append]
    split
    · exact .inr rfl
    · rename_i h
      exact .inl (axisLen_of_ge (by omega))
  obtain ⟨w, hw, hwB, hwb, hwat⟩ := npMul_common (X := z) (Y := { shape := pdims, get := fun _ => (1 : α) })
    hzB h1B
  have hwat' : ∀ c, w.at c = z.at c := by
    intro c
    rw [hwat]
    simp [Arr.at]
  -- the multiplier
  set r : Nat := (((List.range S.length).filter
      fun k => decide (∀ s ∈ [R, PP], axisLen s k = 1)).map (axisLen S)).prod with hr
  have hmult : broadcastingMultiplier S [R, PP] = .ok r := by
    rw [C04_multiplier_value, if_pos (by simp [hRS, hPS])]
  set msg : Arr α := if r ≠ 1 then npScale r w else w with hmsg
  have hmsgsh : msg.shape = w.shape := by
    rw [hmsg]; split <;> rfl
  have hmsgat : ∀ c, msg.at c = (r : α) * z.at c := by
    intro c
    rw [← hwat', hmsg]
    split
    · rfl
    · rename_i h
      have : r = 1 := by simpa using h
      rw [this]
      simp
  obtain ⟨hwl, hwd⟩ := isBroadcast_full hwB hwb (le_refl _) (fun _ _ => rfl)
  have hwdrop : w.shape.drop (w.shape.length - pdims.length) = pdims := by
    rw [eq_map_axisLen pdims, eq_map_axisLen (w.shape.drop _)]
    simp only [List.length_map, List.length_reverse, List.length_range, List.length_drop]
    rw [show w.shape.length - (w.shape.length - pdims.length) = pdims.length by omega]
    apply List.map_congr_left
    intro k hk
    have hk' : k < pdims.length := by simpa using hk
    have h2 := axisLen_append (w.shape.take (w.shape.length - pdims.length))
      (w.shape.drop (w.shape.length - pdims.length)) k
    rw [List.take_append_drop, if_pos (by simp; omega)] at h2
    rw [← h2, hwd k hk']
  refine ⟨msg, w.shape.take (w.shape.length - pdims.length), ?_, ?_, Verif.BroadcastsTo.take hwb hwl, ?_⟩
  · unfold smMessageArray
    simp only
    rw [hlabelled', haxes, hkept, hremoved, hrn]
    have hm0 : broadcastedShape [[], mask] = .ok mask := by
      rw [broadcastedShape_ok]
      refine ⟨by simp, .inr ⟨mask, by simp, rfl⟩, ?_, fun k => .inr ⟨mask, by simp, rfl⟩⟩
      intro k s hs
      simp only [List.mem_cons, List.not_mem_nil, or_false] at hs
      rcases hs with rfl | rfl
      · exact .inl (axisLen_of_ge (by simp))
      · exact .inr rfl
    have hfold : ((args.map fun op => (op.1, op.2.map ℓ)).map fun x =>
        x.1.shape.take (x.1.shape.length - x.2.length)).foldlM
        (fun r p => broadcastedShape [r, p]) mask = .ok R := by
      apply foldlM_broadcast
      apply isBroadcast_cons_of _ hmask
      rw [List.map_map]
      have : ((fun x : Arr α × List Nat => x.1.shape.take (x.1.shape.length - x.2.length)) ∘
          fun op : Arr α × List κ => (op.1, op.2.map ℓ)) = opPlates := by
        funext op
        simp [opPlates]
      rw [this]
      exact hR
    rw [hm0]
    simp only [bind, Except.bind]
    rw [hfold]
    simp only
    rw [hy]
    simp only
    rw [hshape, hz]
    simp only
    rw [hw]
    simp only
    rw [hmult]
    rfl
  · rw [hmsgsh, ← hwdrop]
    conv_lhs => rw [← List.take_append_drop (w.shape.length - pdims.length) w.shape]
    rw [hwdrop]
  · intro U hU
    -- dependence of the factors on the names
    have hFdep : ∀ e e', (∀ l, a l ≠ 1 → e l = e' l) → F e = F e' := by
      intro e e' h
      simp only [hF]
      congr 1
      apply List.map_congr_left
      intro op hop
      apply op.1.at_congr
      intro i hi
      have hlen : op.2.length = op.1.shape.length := by
        obtain ⟨op', hop', rfl⟩ := List.mem_map.1 hop
        rw [length_axisNames]
        have := hdim op' hop'
        simp only [hpc]
        omega
      have hil : i < op.1.shape.length := by
        by_contra hc
        exact hi (axisLen_of_ge (by omega))
      rw [coord_map_getD _ _ _ (by omega), coord_map_getD _ _ _ (by omega)]
      apply h
      intro h1
      have hmem : (op.2[op.2.length - 1 - i]'(by omega), axisLen op.1.shape i) ∈ op.2.zip op.1.shape := by
        rw [List.mem_iff_getElem]
        refine ⟨op.2.length - 1 - i, by simp; omega, ?_⟩
        rw [List.getElem_zip]
        congr 1
        have := axisLen_eq_getElem (r := op.1.shape) (j := op.2.length - 1 - i) (by omega)
        rw [← this]
        congr 1
        omega
      rcases hfit' op hop _ hmem with h' | h'
      · exact hi h'
      · simp only at h'
        rw [h1] at h'
        exact hi h'
    set Uf : (Nat ⊕ κ → Nat) → α := fun e => U.at (coord (pn.map e)) with hUf
    have hpnlen : pn.length = (PP ++ pdims).length := by rw [← hpnmap]; simp
    have hUdep : ∀ e e', (∀ l ∈ pn, plen l ≠ 1 → e l = e' l) → Uf e = Uf e' := by
      intro e e' h
      apply U.at_congr
      intro i hi
      have hil : i < pn.length := by
        by_contra hc
        have := hU.1
        exact hi (axisLen_of_ge (by omega))
      rw [coord_map_getD _ _ _ hil, coord_map_getD _ _ _ hil]
      apply h _ (List.getElem_mem _)
      intro h1
      rcases hU.2 i with h' | h'
      · exact hi h'
      · rw [← hpnmap, axisLen_map_len _ _ _ hil, h1] at h'
        exact hi h'
    have hmain := message_sum T pn A Λ plen a F Uf (fun _ => 0) hTnd hpnnd hpsub hplenΛ haΛ hFdep hUdep
      hAnd (by
        intro l hl
        obtain ⟨hu, hn⟩ := (hAmem l).1 hl
        rintro ⟨h1, h2⟩
        exact hn (List.mem_filter.2 ⟨h1, by simp only [hq, decide_eq_true_iff]; exact ⟨h2, hu⟩⟩))
      (by
        intro l hl hn
        obtain ⟨op, hop, h⟩ := hused l hl
        refine (hAmem l).2 ⟨⟨op, hop, (List.of_mem_zip h).1⟩, fun hf => ?_⟩
        obtain ⟨h1, h2⟩ := List.mem_filter.1 hf
        simp only [hq, decide_eq_true_iff] at h2
        exact hn ⟨h1, h2.1⟩)
    -- the multiplier of the sums
    have hrr : ∀ inst : DecidablePred fun l => ¬ (l ∈ pn ∧ plen l ≠ 1) ∧ a l = 1,
        ((T.filter fun l => @decide (¬ (l ∈ pn ∧ plen l ≠ 1) ∧ a l = 1) (inst l)).map Λ).prod = r := by
      intro inst
      rw [hT]
      unfold axisNames plateNames
      rw [List.filter_append, List.map_append, List.prod_append, List.filter_map, List.filter_map,
        List.map_map, List.map_map]
      have h2 : ((K.filter ((fun l => decide (¬ (l ∈ pn ∧ plen l ≠ 1) ∧ a l = 1)) ∘ inr)).map
          (Λ ∘ inr)).prod = 1 := by
        apply List.prod_eq_one
        intro x hx
        obtain ⟨k, hk, rfl⟩ := List.mem_map.1 hx
        obtain ⟨hkK, hk'⟩ := List.mem_filter.1 hk
        simp only [Function.comp, decide_eq_true_iff] at hk'
        show size k = 1
        rcases hatt k hkK with h | h | h
        · exact h
        · by_contra hne
          apply hk'.1
          have hkp : k ∈ pkeys := (List.of_mem_zip h).1
          refine ⟨by rw [hpn, mem_axisNames_inr]; exact hkp, ?_⟩
          have : plen (inr k) = size k := by
            obtain ⟨i, hi, he⟩ := List.mem_iff_getElem.1 h
            rw [List.getElem_zip] at he
            have e1 := congrArg Prod.fst he
            have e2 := congrArg Prod.snd he
            simp only at e1 e2
            simp only [hplen]
            rw [← e1, hpnd.idxOf_getElem, List.getD_eq_getElem?_getD, List.getElem?_eq_getElem (by
              simp at hi; omega)]
            rw [e1]
            exact e2
          rw [this]
          exact hne
        · have : a (inr k) = size k := by simp only [ha]; rw [if_pos h]
          rw [← this]
          exact hk'.2
      rw [h2, mul_one, hr]
      rw [List.filter_reverse, List.map_reverse, List.prod_reverse]
      congr 1
      have : (List.range S.length).filter
          ((fun l => decide (¬ (l ∈ pn ∧ plen l ≠ 1) ∧ a l = 1)) ∘ inl)
          = (List.range S.length).filter fun k => decide (∀ s ∈ [R, PP], axisLen s k = 1) := by
        apply List.filter_congr
        intro j _
        simp only [Function.comp, decide_eq_decide]
        rw [hpn, mem_axisNames_inl]
        simp only [hplen, ha, List.mem_cons, List.not_mem_nil, or_false, forall_eq_or_imp, forall_eq]
        constructor
        · rintro ⟨h1, h2⟩
          refine ⟨h2, ?_⟩
          by_contra h3
          exact h1 ⟨by by_contra hc; exact h3 (axisLen_of_ge (by omega)), h3⟩
        · rintro ⟨h1, h2⟩
          exact ⟨fun h => h.2 h2, h1⟩
      rw [this]
      rfl
    have hmain2 : sumKeys (T.map fun l => (l, Λ l)) (fun e => F e * Uf e) (fun _ => 0)
        = sumKeys (pn.map fun l => (l, plen l)) (fun e =>
          (r : α) * sumKeys (A.map fun l => (l, a l)) F e * Uf e) (fun _ => 0) := by
      rw [hmain]
      congr 1
      funext e
      congr 2
      exact congrArg Nat.cast (hrr _)
    -- the message as a sum over the names of the parent
    have hL : sumOver (PP ++ pdims) (fun c => msg.at c * U.at c)
        = sumKeys (pn.map fun l => (l, plen l)) (fun e =>
          (r : α) * sumKeys (A.map fun l => (l, a l)) F e * Uf e) (fun _ => 0) := by
      rw [← hpnmap, sumOver_keys pn hpnnd plen _ (fun _ => 0)]
      apply sumKeys_congr' _ (by simpa [Function.comp_def] using hpnnd)
      intro e _ he
      have hlt : ∀ l ∈ pn, e l < plen l := fun l hl => he (l, plen l) (List.mem_map_of_mem hl)
      simp only [hUf]
      rw [hmsgat]
      congr 2
      set c := coord (pn.map e) with hc
      have hcv : ValidIn (PP ++ pdims) c := by
        rw [← hpnmap]
        exact validIn_coord_map pn plen e hlt
      have hrv : ValidIn z.shape (restrict z.shape c) := by
        intro i
        unfold restrict
        split
        · rename_i h; rw [h]; exact Nat.one_pos
        · rename_i h
          rcases hzB.2 i with h' | h'
          · exact absurd h' h
          · rw [h']; exact hcv i
      obtain ⟨c', hc', hcl⟩ := hzat _ hrv
      show z.get (restrict z.shape c) = _
      rw [hc']
      set e' : Nat ⊕ κ → Nat := fun l =>
        c' ((pn.filter q).length - 1 - (pn.filter q).idxOf l) with he'
      rw [hyat c' e' (fun l _ => rfl)]
      apply sumKeys_base _ _ (fun l => a l ≠ 1) hFdep
      intro l hl hlA
      have hlA' : l ∉ A := by
        intro h
        exact hlA (by simpa [Function.comp_def] using h)
      have hlout : l ∈ pn.filter q := by
        by_contra hn
        obtain ⟨op, hop, h⟩ := hused l hl
        exact hlA' ((hAmem l).2 ⟨⟨op, hop, (List.of_mem_zip h).1⟩, hn⟩)
      have hlls : l ∈ ls.filter q := by rw [← hlsq]; exact hlout
      obtain ⟨hlm, hlq⟩ := List.mem_filter.1 hlls
      have hi := List.idxOf_lt_length_of_mem hlm
      simp only [he']
      rw [hlsq, hcl l hlm hlq]
      have hax : axisLen z.shape (ls.length - 1 - ls.idxOf l) = a l := by
        rw [hzsh, axisLen_map_len _ _ _ (by omega)]
        have e : ls.length - 1 - (ls.length - 1 - ls.idxOf l) = ls.idxOf l := by omega
        simp only [e, List.getElem_idxOf hi]
        rw [if_pos hlq]
      unfold restrict
      rw [hax, if_neg hl, hc]
      have hlpn : l ∈ pn := (List.mem_filter.1 hlout).1
      have hpos : ls.length - 1 - ls.idxOf l = pn.length - 1 - pn.idxOf l := by
        have hidx : pn.idxOf l = (PP.length - R.length) + ls.idxOf l := by
          conv_lhs => rw [← List.take_append_drop (PP.length - R.length) pn]
          rw [hlsdrop, List.idxOf_append_of_notMem]
          · congr 1
            rw [List.length_take, hpn, length_axisNames]
            omega
          · intro h
            have hdis := List.disjoint_take_drop hpnnd (le_refl (PP.length - R.length))
            exact hdis h (by rw [hlsdrop]; exact hlm)
        rw [hidx]
        have : ls.length = pn.length - (PP.length - R.length) := by rw [← hlsdrop]; simp
        omega
      rw [hpos]
      exact coord_map_idxOf pn e hlpn
    rw [hL, ← hmain2]
    -- the sum over all names
    have hTsplit : (T.map fun l => (l, Λ l)) = ((plateNames κ S.length).map fun l => (l, Λ l))
        ++ (K.map inr).map fun l => (l, Λ l) := by
      rw [hT]
      unfold axisNames
      rw [List.map_append]
    have hSmap : (plateNames κ S.length).map Λ = S := by
      unfold plateNames
      rw [List.map_map]
      exact (eq_map_axisLen S).symm
    rw [hTsplit, sumKeys_append]
    have hS : sumOver S (fun p => sumKeys (K.map fun k => (k, size k)) (fun e =>
              (args.map fun op => opElem op p e).prod * opElem (U, pkeys) p e) (fun _ => 0))
        = sumKeys ((plateNames κ S.length).map fun l => (l, Λ l)) (fun e0 =>
            sumKeys (K.map fun k => (k, size k)) (fun e =>
              (args.map fun op => opElem op (coord ((plateNames κ S.length).map e0)) e).prod *
              opElem (U, pkeys) (coord ((plateNames κ S.length).map e0)) e) (fun _ => 0)) (fun _ => 0) := by
      conv_lhs => rw [← hSmap]
      rw [sumOver_keys (plateNames κ S.length)
        (by unfold plateNames; exact (List.nodup_reverse.2 List.nodup_range).map inl_injective) Λ _
        (fun _ => 0)]
    rw [hS]
    congr 1
    funext e0
    set p := coord ((plateNames κ S.length).map e0) with hp
    have hpj : ∀ j, j < S.length → p j = e0 (inl j) := by
      intro j hj
      rw [hp, coord_map_getD _ _ _ (by simpa [plateNames] using hj)]
      simp [plateNames]
      congr 2
      omega
    have hren := sumKeys_rename (K.map fun k => (k, size k)) (fun e : κ → Nat =>
        (args.map fun op => opElem op p e).prod * opElem (U, pkeys) p e) (inr (α := Nat)) (fun k => k ∈ K)
      (by
        intro e e' h
        have hop : ∀ op ∈ args, opElem op p e = opElem op p e' := by
          intro op hop
          unfold opElem
          rw [List.map_congr_left fun k hk => h k (hargs op hop k hk)]
        have hu : opElem (U, pkeys) p e = opElem (U, pkeys) p e' := by
          unfold opElem
          rw [List.map_congr_left (l := (U, pkeys).2) fun k hk => h k (hpK k hk)]
        rw [List.map_congr_left hop, hu])
      (fun a b _ _ h => inr_injective h) (by simp) e0 (fun k => e0 (inr k)) (fun _ _ => rfl)
    have hbase := sumKeys_base (K.map fun k => (k, size k)) (fun e : κ → Nat =>
        (args.map fun op => opElem op p e).prod * opElem (U, pkeys) p e) (fun k => k ∈ K)
      (by
        intro e e' h
        have hop : ∀ op ∈ args, opElem op p e = opElem op p e' := by
          intro op hop
          unfold opElem
          rw [List.map_congr_left fun k hk => h k (hargs op hop k hk)]
        have hu : opElem (U, pkeys) p e = opElem (U, pkeys) p e' := by
          unfold opElem
          rw [List.map_congr_left (l := (U, pkeys).2) fun k hk => h k (hpK k hk)]
        rw [List.map_congr_left hop, hu])
      (c := fun k => e0 (inr k)) (c' := fun _ => 0)
      (by intro k hk hn; exact absurd (by simpa using hk) hn)
    rw [hbase] at hren
    rw [← hren]
    simp only [List.map_map, Function.comp_def]
    apply sumKeys_congr
    intro e he
    have hpe : ∀ j, j < S.length → p j = e (inl j) := by
      intro j hj
      rw [hpj j hj, he (inl j) (by simp)]
    have hopat : ∀ op ∈ args, op.1.at (coord ((axisNames (pc op) op.2).map e))
        = opElem op p (fun k => e (inr k)) := by
      intro op hop
      rw [at_axisNames (by have := hdim op hop; simp only [hpc]; omega)]
      apply op.1.at_congr
      intro i hi
      unfold joinC
      split
      · rfl
      · rw [hpe]
        have h1 : i < op.1.shape.length := by
          by_contra hc
          exact hi (axisLen_of_ge (by omega))
        have h2 := hR.rank_ge _ (List.mem_map_of_mem hop)
        rw [hpl] at h2
        have := hRS.1
        simp only [hpc] at h2
        omega
    have hFe : F e = (args.map fun op => opElem op p (fun k => e (inr k))).prod := by
      simp only [hF, hops, List.map_map]
      congr 1
      apply List.map_congr_left
      intro op hop
      exact hopat op hop
    have hUe : Uf e = opElem (U, pkeys) p (fun k => e (inr k)) := by
      simp only [hUf, opElem]
      apply U.at_congr
      intro i hi
      have h1 : i < PP.length + pkeys.length := by
        by_contra hc
        have := hU.1
        rw [List.length_append, hpd] at this
        exact hi (axisLen_of_ge (by omega))
      rw [hpn, coord_axisNames _ _ _ _ h1]
      unfold joinC
      split
      · rfl
      · rw [hpe]
        have := hPS.1
        omega
    rw [hFe, hUe]

end

end Verif
