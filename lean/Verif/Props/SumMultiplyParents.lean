import Verif.Props.SumMultiplyMessage
import Verif.Props.SumMultiplyRename

/-!
# C18: the messages of `SumMultiply` to its parents are the adjoints of its moments
-/

namespace Verif
open Spec Function

section
variable {κ α : Type}

theorem set_perm_cons {β : Type} (l : List β) (i : Nat) (b : β) (h : i < l.length) :
    (l.set i b).Perm (b :: l.eraseIdx i) := by
  induction l generalizing i with
  | nil => simp at h
  | cons a l ih =>
    cases i with
    | zero => simp
    | succ i =>
      simp only [List.set_cons_succ, List.eraseIdx_cons_succ]
      exact ((ih i (by simpa using h)).cons a).trans (List.Perm.swap _ _ _)

/-- Shapes which all broadcast to `S` have a common broadcast, which does so as well. -/
theorem exists_isBroadcast_of_all {ps : List (List Nat)} {S : List Nat} (h : ∀ s ∈ ps, BroadcastsTo s S) :
    ∃ R, IsBroadcast ps R ∧ BroadcastsTo R S := by
  obtain ⟨R, hR⟩ := (exists_isBroadcast_iff ps).2 (by
    intro k s hs t ht
    have := (h s hs).2 k
    have := (h t ht).2 k
    omega)
  refine ⟨R, hR, ?_, ?_⟩
  · rcases hR.rank_le with h' | ⟨s, hs, h'⟩
    · omega
    · have := (h s hs).1
      omega
  · intro k
    rcases hR.attained k with h' | ⟨s, hs, h'⟩
    · exact .inl h'
    · rw [← h']
      exact (h s hs).2 k

theorem isBroadcast_broadcastsTo {ps : List (List Nat)} {R s : List Nat} (h : IsBroadcast ps R) (hs : s ∈ ps) :
    BroadcastsTo s R := ⟨h.rank_ge s hs, fun k => h.fits k s hs⟩

variable [CommSemiring α]

/-- Only the positions along the plates of an operand matter. -/
theorem opElem_restrict (op : Arr α × List κ) {P : List Nat} (hdim : op.2.length ≤ op.1.shape.length)
    (h : BroadcastsTo (opPlates op) P) (p : Nat → Nat) (e : κ → Nat) :
    opElem op p e = opElem op (restrict P p) e := by
  apply op.1.at_congr
  intro i hi
  unfold joinC
  split
  · rfl
  · rename_i hn
    unfold restrict
    rw [if_neg]
    intro h1
    have h2 := axisLen_append (opPlates op) (opDims op) i
    have h3 : opPlates op ++ opDims op = op.1.shape := List.take_append_drop _ _
    have h4 : (opDims op).length = op.2.length := by
      simp [opDims]; omega
    rw [h3, if_neg (by omega), h4] at h2
    rcases h.2 (i - op.2.length) with h' | h'
    · exact hi (h2.trans h')
    · exact hi (h2.trans (h'.trans h1))

omit [CommSemiring α] in
theorem opPlates_of {X : Arr α} {P D : List Nat} {ks : List κ} (h : X.shape = P ++ D)
    (hl : D.length = ks.length) : opPlates (X, ks) = P ∧ opDims (X, ks) = D ∧
      ks.length ≤ X.shape.length := by
  refine ⟨?_, ?_, ?_⟩
  · simp [opPlates, h, hl]
  · simp [opDims, h, hl]
  · simp [h, hl]

variable [DecidableEq κ]

/-- The factors with the first moment of factor `i` replaced. -/
def setFirst (fs : List (Factor κ α)) (i : Nat) (f : Factor κ α) (U : Arr α) (P : List Nat) :
    List (Factor κ α) := fs.set i { f with u0 := U, plates0 := P }

/-- The factors with the second moment of factor `i` replaced. -/
def setSecond (fs : List (Factor κ α)) (i : Nat) (f : Factor κ α) (U : Arr α) (P : List Nat) :
    List (Factor κ α) := fs.set i { f with u1 := U, plates1 := P }

omit [CommSemiring α] in
theorem inKeys_eq {fs : List (Factor κ α)} {full : List κ} :
    (fs.zip ((fs.map Factor.node).map fun nd => nd.1.map full.idxOf)).map (fun x => x.1.toParent x.2)
      = fs.map fun f => f.toParent (f.keys.map full.idxOf) := by
  rw [List.map_map]
  have : ∀ (l : List (Factor κ α)), (l.zip (l.map ((fun nd => nd.1.map full.idxOf) ∘ Factor.node))).map
      (fun x => x.1.toParent x.2) = l.map fun f => f.toParent (f.keys.map full.idxOf) := by
    intro l
    induction l with
    | nil => rfl
    | cons a l ih => simp only [List.map_cons, List.zip_cons_cons, ih]; rfl
  exact this fs

/-- The first message, with the keys numbered by `full`. -/
theorem message_first (fs : List (Factor κ α)) (out full : List κ) (size : κ → Nat)
    {setList : List κ → List κ} (hset : ListsSet setList)
    (hfullDef : full = setList ((fs.map Factor.node).flatMap (·.1)))
    (hw : WellKeyed (fs.map Factor.node) out) (hsize : KeySizes (fs.map Factor.node) size)
    (hsh : ∀ f ∈ fs, f.Shaped) (i : Nat) (f : Factor κ α) (hi : fs[i]? = some f)
    (S PP Pm mask : List Nat) (m : Arr α)
    (hS : ∀ g ∈ fs, BroadcastsTo g.plates0 S) (hPP : BroadcastsTo PP S)
    (hm : m.shape = Pm ++ out.map size) (hPm : BroadcastsTo Pm S) (hmask : BroadcastsTo mask Pm) :
    ∃ msg Q, smMessageArray full.length mask (smOperands0 (out.map full.idxOf)
        ((fs.map fun f => f.toParent (f.keys.map full.idxOf)).eraseIdx i) m)
        (f.keys.map full.idxOf) PP f.dims S = .ok msg ∧ msg.shape = Q ++ f.dims ∧ BroadcastsTo Q PP ∧
      ∀ U P, U.shape = P ++ f.dims → BroadcastsTo P PP →
        ∃ y, smMean full.length (out.map full.idxOf) (((setFirst fs i f U P).map (·.u0)).zip
            ((fs.map Factor.node).map fun nd => nd.1.map full.idxOf)) = .ok y ∧
          sumOver (S ++ out.map size) (fun c => m.at c * y.at c)
            = sumOver (PP ++ f.dims) fun c => msg.at c * U.at c := by
  classical
  have hil : i < fs.length := (List.getElem?_eq_some_iff.1 hi).1
  have hfi : fs[i] = f := (List.getElem?_eq_some_iff.1 hi).2
  have hfmem : f ∈ fs := hfi ▸ List.getElem_mem hil
  have hfull : ∀ k, k ∈ full ↔ ∃ g ∈ fs, k ∈ g.keys := by
    intro k
    rw [hfullDef, (hset _).2 k]
    simp [Factor.node]
  have hfnd : full.Nodup := by rw [hfullDef]; exact (hset _).1
  have hlen : ∀ g ∈ fs, g.dims.length = g.keys.length := fun g hg =>
    hw.length g.node (List.mem_map_of_mem hg)
  have houtfull : ∀ k ∈ out, k ∈ full := by
    intro k hk
    obtain ⟨nd, hnd, h⟩ := hw.out_mem k hk
    obtain ⟨g, hg, rfl⟩ := List.mem_map.1 hnd
    exact (hfull k).2 ⟨g, hg, h⟩
  set others := fs.eraseIdx i with hothers
  have hsub : ∀ g ∈ others, g ∈ fs := fun g hg => List.mem_of_mem_eraseIdx hg
  have hperm : fs.Perm (f :: others) := by
    have := set_perm_cons fs i f hil
    rwa [← hfi, List.set_getElem_self hil, hfi] at this
  set args : List (Arr α × List κ) := others.map (fun g => (g.u0, g.keys)) ++ [(m, out)] with hargs
  have hm' := opPlates_of (ks := out) hm (by simp)
  have hg' : ∀ g ∈ fs, opPlates (g.u0, g.keys) = g.plates0 ∧ opDims (g.u0, g.keys) = g.dims ∧
      g.keys.length ≤ g.u0.shape.length := fun g hg => opPlates_of (hsh g hg).u0 (hlen g hg)
  have hplates : args.map opPlates = others.map (·.plates0) ++ [Pm] := by
    rw [hargs, List.map_append, List.map_map, List.map_cons, List.map_nil, hm'.1]
    congr 1
    exact List.map_congr_left fun g hg => (hg' g (hsub g hg)).1
  obtain ⟨R, hR, hRS⟩ := exists_isBroadcast_of_all (ps := others.map (·.plates0) ++ [Pm]) (S := S) (by
    intro s hs
    rcases List.mem_append.1 hs with hs | hs
    · obtain ⟨g, hg, rfl⟩ := List.mem_map.1 hs
      exact hS g (hsub g hg)
    · simp only [List.mem_singleton] at hs
      subst hs
      exact hPm)
  have hmaskR : BroadcastsTo mask R := Verif.BroadcastsTo.trans hmask (isBroadcast_broadcastsTo hR (by simp))
  have hargmem : ∀ op ∈ args, (∃ g ∈ others, op = (g.u0, g.keys)) ∨ op = (m, out) := by
    intro op hop
    rw [hargs, List.mem_append] at hop
    rcases hop with h | h
    · obtain ⟨g, hg, rfl⟩ := List.mem_map.1 h
      exact .inl ⟨g, hg, rfl⟩
    · exact .inr (by simpa using h)
  obtain ⟨msg, Q, hmsg, hmsgsh, hQ, hadj⟩ := smMessageArray_adjoint full.length full.idxOf size args mask S R
    PP f.dims f.keys full
    (fun k hk => le_of_lt (List.idxOf_lt_length_of_mem hk))
    (fun a ha b _ h => idxOf_inj_of_mem ha h) hfnd
    (by
      intro op hop k hk
      rcases hargmem op hop with ⟨g, hg, rfl⟩ | rfl
      · exact (hfull k).2 ⟨g, hsub g hg, hk⟩
      · exact houtfull k hk)
    (fun k hk => (hfull k).2 ⟨f, hfmem, hk⟩)
    (by
      intro op hop
      rcases hargmem op hop with ⟨g, hg, rfl⟩ | rfl
      · exact (hg' g (hsub g hg)).2.2
      · exact hm'.2.2)
    (by rw [hplates]; exact hR) hmaskR hRS hPP
    (by
      intro op hop p hp
      rcases hargmem op hop with ⟨g, hg, rfl⟩ | rfl
      · rw [(hg' g (hsub g hg)).2.1] at hp
        exact hsize.fits g.node (List.mem_map_of_mem (hsub g hg)) p hp
      · rw [hm'.2.1] at hp
        right
        simp only at hp
        rw [List.zip_map_right] at hp
        obtain ⟨x, hx, rfl⟩ := List.mem_map.1 hp
        have : x.1 = x.2 := by
          obtain ⟨j, hj, rfl⟩ := List.mem_iff_getElem.1 hx
          simp
        simp [Prod.map, this])
    (hlen f hfmem) (hw.nodup f.node (List.mem_map_of_mem hfmem))
    (fun p hp => hsize.fits f.node (List.mem_map_of_mem hfmem) p hp)
    (by
      intro k _
      rcases hsize.attained k with h | ⟨nd, hnd, h⟩
      · exact .inl h
      · obtain ⟨g, hg, rfl⟩ := List.mem_map.1 hnd
        right
        rcases List.mem_cons.1 (hperm.mem_iff.1 hg) with rfl | hg'
        · exact .inl h
        · right
          refine ⟨(g.u0, g.keys), by rw [hargs]; exact List.mem_append_left _ (List.mem_map_of_mem hg'), ?_⟩
          rw [(opPlates_of (hsh g hg).u0 (hlen g hg)).2.1]
          exact h)
  refine ⟨msg, Q, ?_, hmsgsh, hQ, ?_⟩
  · rw [← hmsg]
    congr 1
    rw [hargs, smOperands0, List.eraseIdx_map]
    simp only [List.map_append, List.map_map, List.map_cons, List.map_nil]
    rfl
  · intro U P hU hP
    set f' : Factor κ α := { f with u0 := U, plates0 := P } with hf'
    set fs' := setFirst fs i f U P with hfs'
    have hperm' : fs'.Perm (f' :: others) := set_perm_cons fs i f' hil
    have hnodes : fs'.map Factor.node = fs.map Factor.node := by
      rw [hfs', setFirst, List.map_set]
      apply List.ext_getElem
      · simp
      · intro j h1 h2
        rw [List.getElem_set]
        split
        · rename_i h
          subst h
          rw [List.getElem_map, hfi]
          rfl
        · rfl
    have hsh' : ∀ g ∈ fs', g.Shaped := by
      intro g hg
      rcases List.mem_cons.1 (hperm'.mem_iff.1 hg) with rfl | hg
      · exact ⟨hU, (hsh f hfmem).u1⟩
      · exact hsh g (hsub g hg)
    have hpl' : ∀ g ∈ fs', BroadcastsTo g.plates0 S := by
      intro g hg
      rcases List.mem_cons.1 (hperm'.mem_iff.1 hg) with rfl | hg
      · exact Verif.BroadcastsTo.trans hP hPP
      · exact hS g (hsub g hg)
    obtain ⟨P0, hP0, hP0S⟩ := exists_isBroadcast_of_all (ps := fs'.map (·.plates0)) (S := S) (by
      intro s hs
      obtain ⟨g, hg, rfl⟩ := List.mem_map.1 hs
      exact hpl' g hg)
    have hsize' : KeySizes (fs'.map Factor.node) size := hnodes ▸ hsize
    have hinit := smInit_good hset (hnodes ▸ hw : WellKeyed (fs'.map Factor.node) out) hsize'
    set K := full.filter (· ∉ out) with hK
    have hkeys' : ∀ k, (∃ g ∈ fs', k ∈ g.keys) ↔ k ∈ full := by
      intro k
      rw [hfullDef, (hset _).2 k, ← hnodes]
      simp [Factor.node]
    obtain ⟨y, hy, hysh, hyat⟩ := C18_first_moment hset fs' out _ size hinit hsize' hsh' P0 hP0
      K (hfnd.filter _) (by
        intro k
        rw [hkeys', hK, List.mem_filter, decide_eq_true_iff])
    refine ⟨y, ?_, ?_⟩
    · rw [hnodes] at hy
      rw [← hy, hfullDef]
      rfl
    · rw [hadj U ⟨by rw [hU]; simp; exact hP.1, fun k => by
        rw [hU]
        exact (Verif.broadcastsTo_append_right hP).2 k⟩, sumOver_append]
      apply sumOver_congr_valid
      intro p hp
      rw [sumOver_keys out hw.out_nodup size _ (fun _ => 0)]
      have hyp := opPlates_of (D := out.map size) (ks := out) hysh (by simp)
      have hfirst : ∀ (e : κ → Nat) (g : Factor κ α), g ∈ fs' →
          g.first (restrict P0 p) e = g.first p e := by
        intro e g hg
        have hlg : g.dims.length = g.keys.length := by
          rcases List.mem_cons.1 (hperm'.mem_iff.1 hg) with rfl | hg
          · exact hlen f hfmem
          · exact hlen g (hsub g hg)
        have hpo := opPlates_of (ks := g.keys) (hsh' g hg).u0 hlg
        exact (opElem_restrict (g.u0, g.keys) hpo.2.2
          (by rw [hpo.1]; exact isBroadcast_broadcastsTo hP0 (List.mem_map_of_mem hg)) p e).symm
      have hstep : sumKeys (out.map fun k => (k, size k)) (fun e =>
            m.at (joinC (out.map size).length (coord (out.map e)) p) *
              y.at (joinC (out.map size).length (coord (out.map e)) p)) (fun _ => 0)
          = sumKeys (out.map fun k => (k, size k)) (fun e => sumKeys (K.map fun k => (k, size k))
              (fun e => opElem (m, out) p e * (fs'.map fun g => g.first p e).prod) e) (fun _ => 0) := by
        apply sumKeys_congr' _ (by simpa [Function.comp_def] using hw.out_nodup)
        intro e _ he
        have he' : ∀ k ∈ out, e k < size k := fun k hk => he (k, size k) (List.mem_map_of_mem hk)
        rw [List.length_map]
        have hy1 : y.at (joinC out.length (coord (out.map e)) p)
            = y.at (joinC out.length (coord (out.map e)) (restrict P0 p)) :=
          opElem_restrict (y, out) hyp.2.2 (by rw [hyp.1]; exact BroadcastsTo.refl _) p e
        rw [hy1, hyat _ e (restrict_valid hP0S.2 hp) he']
        rw [sumKeys_mul_left _ _ (fun e => opElem (m, out) p e)]
        · congr 2
          funext e
          rw [List.map_congr_left fun g hg => hfirst e g hg]
        · intro x hx c t
          obtain ⟨k, hk, rfl⟩ := List.mem_map.1 hx
          have hko : k ∉ out := by
            have := (List.mem_filter.1 hk).2
            simpa using this
          unfold opElem
          rw [List.map_congr_left fun k' hk' => update_of_ne (by rintro rfl; exact hko hk') t c]
      rw [hstep, ← sumKeys_append, ← List.map_append]
      have hp2 : (out ++ K).Perm full := by
        apply perm_of_mem_iff
        · refine List.nodup_append.2 ⟨hw.out_nodup, hfnd.filter _, ?_⟩
          intro a ha b hb he
          subst he
          have := (List.mem_filter.1 hb).2
          simp at this
          exact this ha
        · exact hfnd
        · intro k
          rw [List.mem_append, hK, List.mem_filter, decide_eq_true_iff]
          constructor
          · rintro (h | h)
            · exact houtfull k h
            · exact h.1
          · intro h
            by_cases ho : k ∈ out
            · exact .inl ho
            · exact .inr ⟨h, ho⟩
      rw [sumKeys_perm (hp2.map _) (by
        simpa [Function.comp_def] using hp2.nodup_iff.2 hfnd)]
      congr 1
      funext e
      have hprod : (fs'.map fun g => g.first p e).prod
          = opElem (U, f.keys) p e * (others.map fun g => opElem (g.u0, g.keys) p e).prod := by
        rw [(hperm'.map _).prod_eq, List.map_cons, List.prod_cons]
        rfl
      rw [hprod, hargs, List.map_append, List.prod_append, List.map_map]
      simp only [List.map_cons, List.map_nil, List.prod_cons, List.prod_nil, mul_one, Function.comp_def]
      ring

/-! ## The second message -/

/-- The operands of the second message contributed by a factor. -/
def msgOps (f : Factor κ α) : List (Arr α × List (Bool × κ)) :=
  if !f.isConst then [(f.u1, f.keys.map rowKey ++ f.keys.map colKey)]
  else [(f.u0, f.keys.map colKey), (f.u0, f.keys.map rowKey)]

omit [DecidableEq κ] [CommSemiring α] in
theorem mem_zip_dup (b : Bool) (ks : List κ) (ds : List Nat) (x : Bool × κ) (d : Nat) :
    (x, d) ∈ (ks.map fun k => (b, k)).zip ds ↔ x.1 = b ∧ (x.2, d) ∈ ks.zip ds := by
  rw [List.zip_map_left, List.mem_map]
  constructor
  · rintro ⟨⟨k, d'⟩, h, he⟩
    simp only [Prod.map, id, Prod.mk.injEq] at he
    obtain ⟨rfl, rfl⟩ := he
    exact ⟨rfl, h⟩
  · rintro ⟨rfl, h⟩
    exact ⟨(x.2, d), h, rfl⟩

omit [DecidableEq κ] [CommSemiring α] in
theorem mem_zip_rowcol (ks : List κ) (ds : List Nat) (h : ds.length = ks.length) (x : Bool × κ) (d : Nat) :
    (x, d) ∈ (ks.map rowKey ++ ks.map colKey).zip (ds ++ ds) ↔ (x.2, d) ∈ ks.zip ds := by
  rw [List.zip_append (by simp [h]), List.mem_append]
  have h1 := mem_zip_dup true ks ds x d
  have h2 := mem_zip_dup false ks ds x d
  constructor
  · rintro (h' | h')
    · exact (h1.1 h').2
    · exact (h2.1 h').2
  · intro h'
    cases hb : x.1
    · exact .inr (h2.2 ⟨hb, h'⟩)
    · exact .inl (h1.2 ⟨hb, h'⟩)

omit [DecidableEq κ] in
theorem msgOps_prod (f : Factor κ α) (p : Nat → Nat) (e : Bool × κ → Nat) :
    ((msgOps f).map fun op => opElem op p e).prod
      = f.second p (fun k => e (rowKey k)) (fun k => e (colKey k)) := by
  rw [← secondOps_prod]
  unfold msgOps secondOps
  cases f.isConst
  · rfl
  · simp only [Bool.not_true, Bool.false_eq_true, if_false, List.map_cons, List.map_nil, List.prod_cons,
      List.prod_nil, mul_one]
    rw [mul_comm]
    rfl

omit [DecidableEq κ] [CommSemiring α] in
/-- Plates and axes of the operands of a factor. -/
theorem msgOps_axes (f : Factor κ α) (hsh : f.Shaped) (hl : f.dims.length = f.keys.length) :
    ∀ op ∈ msgOps f, opPlates op = f.secondPlates ∧ op.2.length ≤ op.1.shape.length ∧
      (∀ x ∈ op.2, x.2 ∈ f.keys) ∧
      ∀ x d, (x, d) ∈ op.2.zip (opDims op) → (x.2, d) ∈ f.keys.zip f.dims := by
  intro op hop
  unfold msgOps at hop
  cases hc : f.isConst
  · rw [hc] at hop
    simp only [Bool.not_false, if_true, List.mem_singleton] at hop
    subst hop
    have h := opPlates_of (P := f.plates1) (D := f.dims ++ f.dims)
      (ks := f.keys.map rowKey ++ f.keys.map colKey) (X := f.u1)
      (by rw [hsh.u1 hc, List.append_assoc]) (by simp [hl])
    refine ⟨by rw [h.1]; simp [Factor.secondPlates, hc], h.2.2, ?_, ?_⟩
    · intro x hx
      simp only [List.mem_append, List.mem_map] at hx
      rcases hx with ⟨k, hk, rfl⟩ | ⟨k, hk, rfl⟩ <;> exact hk
    · intro x d hx
      rw [h.2.1] at hx
      exact (mem_zip_rowcol f.keys f.dims hl x d).1 hx
  · rw [hc] at hop
    simp only [Bool.not_true, Bool.false_eq_true, if_false, List.mem_cons, List.not_mem_nil, or_false] at hop
    have key : ∀ b, (op = (f.u0, f.keys.map fun k => (b, k))) → opPlates op = f.secondPlates ∧
        op.2.length ≤ op.1.shape.length ∧ (∀ x ∈ op.2, x.2 ∈ f.keys) ∧
        ∀ x d, (x, d) ∈ op.2.zip (opDims op) → (x.2, d) ∈ f.keys.zip f.dims := by
      rintro b rfl
      have h := opPlates_of (P := f.plates0) (D := f.dims) (ks := f.keys.map fun k => (b, k)) (X := f.u0)
        hsh.u0 (by simp [hl])
      refine ⟨by rw [h.1]; simp [Factor.secondPlates, hc], h.2.2, ?_, ?_⟩
      · intro x hx
        simp only [List.mem_map] at hx
        obtain ⟨k, hk, rfl⟩ := hx
        exact hk
      · intro x d hx
        rw [h.2.1] at hx
        exact ((mem_zip_dup b f.keys f.dims x d).1 hx).2
    rcases hop with h | h
    · exact key false h
    · exact key true h

omit [DecidableEq κ] [CommSemiring α] in
theorem msgOps_attain (f : Factor κ α) (hsh : f.Shaped) (hl : f.dims.length = f.keys.length) (x : Bool × κ)
    (d : Nat) (h : (x.2, d) ∈ f.keys.zip f.dims) :
    ∃ op ∈ msgOps f, (x, d) ∈ op.2.zip (opDims op) := by
  unfold msgOps
  cases hc : f.isConst
  · have h' := opPlates_of (P := f.plates1) (D := f.dims ++ f.dims)
      (ks := f.keys.map rowKey ++ f.keys.map colKey) (X := f.u1)
      (by rw [hsh.u1 hc, List.append_assoc]) (by simp [hl])
    refine ⟨_, List.mem_singleton.2 rfl, ?_⟩
    rw [h'.2.1]
    exact (mem_zip_rowcol f.keys f.dims hl x d).2 h
  · have key : ∀ b, x.1 = b → (x, d) ∈ (f.keys.map fun k => (b, k)).zip
        (opDims (f.u0, f.keys.map fun k => (b, k))) := by
      intro b hb
      have h' := opPlates_of (P := f.plates0) (D := f.dims) (ks := f.keys.map fun k => (b, k)) (X := f.u0)
        hsh.u0 (by simp [hl])
      rw [h'.2.1]
      exact (mem_zip_dup b f.keys f.dims x d).2 ⟨hb, h⟩
    simp only [Bool.not_true, Bool.false_eq_true, if_false]
    cases hb : x.1
    · exact ⟨(f.u0, f.keys.map colKey), by simp, key false hb⟩
    · exact ⟨(f.u0, f.keys.map rowKey), by simp, key true hb⟩

/-- The second message, with the keys numbered by `full`. -/
theorem message_second (fs : List (Factor κ α)) (out full : List κ) (size : κ → Nat)
    {setList : List κ → List κ} (hset : ListsSet setList)
    (hfullDef : full = setList ((fs.map Factor.node).flatMap (·.1)))
    (hw : WellKeyed (fs.map Factor.node) out) (hsize : KeySizes (fs.map Factor.node) size)
    (hsh : ∀ f ∈ fs, f.Shaped) (i : Nat) (f : Factor κ α) (hi : fs[i]? = some f) (hfc : f.isConst = false)
    (S PP Pm mask : List Nat) (m : Arr α)
    (hS : ∀ g ∈ fs, BroadcastsTo g.secondPlates S) (hPP : BroadcastsTo PP S)
    (hm : m.shape = Pm ++ (out.map size ++ out.map size)) (hPm : BroadcastsTo Pm S)
    (hmask : BroadcastsTo mask Pm) :
    ∃ msg Q, smMessageArray (2 * full.length) mask (smOperands1 full.length (out.map full.idxOf)
        ((fs.map fun f => f.toParent (f.keys.map full.idxOf)).eraseIdx i) m)
        ((f.keys.map full.idxOf).map (· + full.length) ++ f.keys.map full.idxOf) PP (f.dims ++ f.dims) S
        = .ok msg ∧ msg.shape = Q ++ (f.dims ++ f.dims) ∧ BroadcastsTo Q PP ∧
      ∀ U P, U.shape = P ++ f.dims ++ f.dims → BroadcastsTo P PP →
        ∃ y, smSecond full.length (out.map full.idxOf) (((setSecond fs i f U P).zip
            ((fs.map Factor.node).map fun nd => nd.1.map full.idxOf)).map fun x => x.1.toParent x.2) = .ok y ∧
          sumOver (S ++ (out.map size ++ out.map size)) (fun c => m.at c * y.at c)
            = sumOver (PP ++ (f.dims ++ f.dims)) fun c => msg.at c * U.at c := by
  classical
  have hil : i < fs.length := (List.getElem?_eq_some_iff.1 hi).1
  have hfi : fs[i] = f := (List.getElem?_eq_some_iff.1 hi).2
  have hfmem : f ∈ fs := hfi ▸ List.getElem_mem hil
  have hfull : ∀ k, k ∈ full ↔ ∃ g ∈ fs, k ∈ g.keys := by
    intro k
    rw [hfullDef, (hset _).2 k]
    simp [Factor.node]
  have hfnd : full.Nodup := by rw [hfullDef]; exact (hset _).1
  have hlen : ∀ g ∈ fs, g.dims.length = g.keys.length := fun g hg =>
    hw.length g.node (List.mem_map_of_mem hg)
  have houtfull : ∀ k ∈ out, k ∈ full := by
    intro k hk
    obtain ⟨nd, hnd, h⟩ := hw.out_mem k hk
    obtain ⟨g, hg, rfl⟩ := List.mem_map.1 hnd
    exact (hfull k).2 ⟨g, hg, h⟩
  set others := fs.eraseIdx i with hothers
  have hsub : ∀ g ∈ others, g ∈ fs := fun g hg => List.mem_of_mem_eraseIdx hg
  have hperm : fs.Perm (f :: others) := by
    have := set_perm_cons fs i f hil
    rwa [← hfi, List.set_getElem_self hil, hfi] at this
  set dup : List κ → List (Bool × κ) := fun l => l.map rowKey ++ l.map colKey with hdup
  have hdupmem : ∀ l x, x ∈ dup l ↔ x.2 ∈ l := by
    rintro l ⟨b, k⟩
    simp only [hdup, List.mem_append, List.mem_map, rowKey, colKey, Prod.mk.injEq]
    cases b <;> simp
  have hdupnd : ∀ l : List κ, l.Nodup → (dup l).Nodup := by
    intro l hl
    refine List.nodup_append.2 ⟨hl.map (fun a b h => (Prod.mk.inj h).2),
      hl.map (fun a b h => (Prod.mk.inj h).2), ?_⟩
    intro a ha b hb he
    obtain ⟨k, _, rfl⟩ := List.mem_map.1 ha
    obtain ⟨k', _, rfl⟩ := List.mem_map.1 hb
    simp [rowKey, colKey] at he
  set size2 : Bool × κ → Nat := fun x => size x.2 with hsize2
  have hdupsize : (dup out).map size2 = out.map size ++ out.map size := by
    simp only [hdup, List.map_append, List.map_map]
    rfl
  set ℓ2 : Bool × κ → Nat := fun x => if x.1 then full.idxOf x.2 + full.length else full.idxOf x.2 with hℓ2
  have hℓdup : ∀ l : List κ, (dup l).map ℓ2 = (l.map full.idxOf).map (· + full.length) ++ l.map full.idxOf := by
    intro l
    simp only [hdup, List.map_append, List.map_map]
    rfl
  set args : List (Arr α × List (Bool × κ)) := others.flatMap msgOps ++ [(m, dup out)] with hargs
  have hm' := opPlates_of (ks := dup out) hm (by rw [← hdupsize, List.length_map])
  have hplates : args.map opPlates = (others.flatMap fun g => (msgOps g).map fun _ => g.secondPlates) ++ [Pm] := by
    rw [hargs, List.map_append, List.map_flatMap, List.map_cons, List.map_nil, hm'.1]
    congr 1
    apply List.flatMap_congr
    intro g hg
    exact List.map_congr_left fun op hop => (msgOps_axes g (hsh g (hsub g hg)) (hlen g (hsub g hg)) op hop).1
  obtain ⟨R, hR, hRS⟩ := exists_isBroadcast_of_all
    (ps := (others.flatMap fun g => (msgOps g).map fun _ => g.secondPlates) ++ [Pm]) (S := S) (by
    intro s hs
    rcases List.mem_append.1 hs with hs | hs
    · obtain ⟨g, hg, hs⟩ := List.mem_flatMap.1 hs
      obtain ⟨_, _, rfl⟩ := List.mem_map.1 hs
      exact hS g (hsub g hg)
    · simp only [List.mem_singleton] at hs
      subst hs
      exact hPm)
  have hmaskR : BroadcastsTo mask R := Verif.BroadcastsTo.trans hmask (isBroadcast_broadcastsTo hR (by simp))
  have hargmem : ∀ op ∈ args, (∃ g ∈ others, op ∈ msgOps g) ∨ op = (m, dup out) := by
    intro op hop
    rw [hargs, List.mem_append] at hop
    rcases hop with h | h
    · exact .inl (List.mem_flatMap.1 h)
    · exact .inr (by simpa using h)
  obtain ⟨msg, Q, hmsg, hmsgsh, hQ, hadj⟩ := smMessageArray_adjoint (2 * full.length) ℓ2 size2 args mask S R
    PP (f.dims ++ f.dims) (dup f.keys) (dup full)
    (by
      rintro ⟨b, k⟩ hk
      have := List.idxOf_lt_length_of_mem ((hdupmem full _).1 hk)
      cases b <;> simp [hℓ2] at this ⊢ <;> omega)
    (by
      rintro ⟨b, k⟩ hk ⟨b', k'⟩ hk' h
      have h1 := (hdupmem full _).1 hk
      have h2 := (hdupmem full _).1 hk'
      have h3 := List.idxOf_lt_length_of_mem h1
      have h4 := List.idxOf_lt_length_of_mem h2
      cases b <;> cases b' <;> simp [hℓ2] at h h1 h2 h3 h4 ⊢
      · exact idxOf_inj_of_mem h1 h
      · omega
      · omega
      · exact idxOf_inj_of_mem h1 h)
    (hdupnd full hfnd)
    (by
      intro op hop x hx
      rw [hdupmem]
      rcases hargmem op hop with ⟨g, hg, hop⟩ | rfl
      · exact (hfull _).2 ⟨g, hsub g hg,
          (msgOps_axes g (hsh g (hsub g hg)) (hlen g (hsub g hg)) op hop).2.2.1 x hx⟩
      · exact houtfull _ ((hdupmem out x).1 hx))
    (by
      intro x hx
      rw [hdupmem] at hx ⊢
      exact (hfull _).2 ⟨f, hfmem, hx⟩)
    (by
      intro op hop
      rcases hargmem op hop with ⟨g, hg, hop⟩ | rfl
      · exact (msgOps_axes g (hsh g (hsub g hg)) (hlen g (hsub g hg)) op hop).2.1
      · exact hm'.2.2)
    (by rw [hplates]; exact hR) hmaskR hRS hPP
    (by
      intro op hop p hp
      rcases hargmem op hop with ⟨g, hg, hop⟩ | rfl
      · have := (msgOps_axes g (hsh g (hsub g hg)) (hlen g (hsub g hg)) op hop).2.2.2 p.1 p.2 hp
        exact hsize.fits g.node (List.mem_map_of_mem (hsub g hg)) _ this
      · rw [hm'.2.1, ← hdupsize] at hp
        right
        rw [List.zip_map_right] at hp
        obtain ⟨x, hx, rfl⟩ := List.mem_map.1 hp
        have : x.1 = x.2 := by
          obtain ⟨j, hj, rfl⟩ := List.mem_iff_getElem.1 hx
          simp
        simp [Prod.map, this])
    (by simp [hdup, hlen f hfmem]) (hdupnd _ (hw.nodup f.node (List.mem_map_of_mem hfmem)))
    (by
      rintro ⟨x, d⟩ hp
      have := (mem_zip_rowcol f.keys f.dims (hlen f hfmem) x d).1 hp
      exact hsize.fits f.node (List.mem_map_of_mem hfmem) _ this)
    (by
      intro x _
      rcases hsize.attained x.2 with h | ⟨nd, hnd, h⟩
      · exact .inl h
      · obtain ⟨g, hg, rfl⟩ := List.mem_map.1 hnd
        right
        rcases List.mem_cons.1 (hperm.mem_iff.1 hg) with rfl | hg'
        · exact .inl ((mem_zip_rowcol g.keys g.dims (hlen g hg) x _).2 h)
        · right
          obtain ⟨op, hop, ho⟩ := msgOps_attain g (hsh g hg) (hlen g hg) x _ h
          exact ⟨op, by rw [hargs]; exact List.mem_append_left _ (List.mem_flatMap.2 ⟨g, hg', hop⟩), ho⟩)
  refine ⟨msg, Q, ?_, hmsgsh, hQ, ?_⟩
  · rw [← hmsg, ← hℓdup]
    congr 1
    rw [hargs, smOperands1, List.eraseIdx_map, List.map_append, List.map_flatMap, List.flatMap_map]
    congr 1
    · apply List.flatMap_congr
      intro g _
      unfold msgOps
      cases hc : g.isConst
      · have := hℓdup g.keys
        simp only [hdup] at this
        simp only [Factor.toParent, hc, Bool.not_false, if_true, List.map_cons, List.map_nil, this]
      · simp only [Factor.toParent, hc, Bool.not_true, Bool.false_eq_true, if_false, List.map_cons, List.map_nil,
          List.map_map]
        rfl
    · simp only [List.map_cons, List.map_nil, hℓdup]
  · intro U P hU hP
    set f' : Factor κ α := { f with u1 := U, plates1 := P } with hf'
    set fs' := setSecond fs i f U P with hfs'
    have hperm' : fs'.Perm (f' :: others) := set_perm_cons fs i f' hil
    have hnodes : fs'.map Factor.node = fs.map Factor.node := by
      rw [hfs', setSecond, List.map_set]
      apply List.ext_getElem
      · simp
      · intro j h1 h2
        rw [List.getElem_set]
        split
        · rename_i h
          subst h
          rw [List.getElem_map, hfi]
          rfl
        · rfl
    have hsh' : ∀ g ∈ fs', g.Shaped := by
      intro g hg
      rcases List.mem_cons.1 (hperm'.mem_iff.1 hg) with rfl | hg
      · exact ⟨(hsh f hfmem).u0, fun _ => hU⟩
      · exact hsh g (hsub g hg)
    have hlen' : ∀ g ∈ fs', g.dims.length = g.keys.length := by
      intro g hg
      rcases List.mem_cons.1 (hperm'.mem_iff.1 hg) with rfl | hg
      · exact hlen f hfmem
      · exact hlen g (hsub g hg)
    have hpl' : ∀ g ∈ fs', BroadcastsTo g.secondPlates S := by
      intro g hg
      rcases List.mem_cons.1 (hperm'.mem_iff.1 hg) with rfl | hg
      · have : f'.secondPlates = P := by simp [Factor.secondPlates, hf', hfc]
        rw [this]
        exact Verif.BroadcastsTo.trans hP hPP
      · exact hS g (hsub g hg)
    obtain ⟨P1, hP1, hP1S⟩ := exists_isBroadcast_of_all (ps := fs'.map (·.secondPlates)) (S := S) (by
      intro s hs
      obtain ⟨g, hg, rfl⟩ := List.mem_map.1 hs
      exact hpl' g hg)
    have hsize' : KeySizes (fs'.map Factor.node) size := hnodes ▸ hsize
    have hinit := smInit_good hset (hnodes ▸ hw : WellKeyed (fs'.map Factor.node) out) hsize'
    set K := full.filter (· ∉ out) with hK
    have hkeys' : ∀ k, (∃ g ∈ fs', k ∈ g.keys) ↔ k ∈ full := by
      intro k
      rw [hfullDef, (hset _).2 k, ← hnodes]
      simp [Factor.node]
    obtain ⟨y, hy, hysh, hyat⟩ := C18_second_moment hset fs' out _ size hinit hsize' hsh' P1 hP1
      K (hfnd.filter _) (by
        intro k
        rw [hkeys', hK, List.mem_filter, decide_eq_true_iff])
    refine ⟨y, ?_, ?_⟩
    · rw [hnodes] at hy
      rw [← hy, hfullDef]
      rfl
    · rw [hadj U ⟨by rw [hU]; simp; exact hP.1, fun k => by
        rw [hU, List.append_assoc]
        exact (Verif.broadcastsTo_append_right hP).2 k⟩, sumOver_append]
      apply sumOver_congr_valid
      intro p hp
      rw [← hdupsize, sumOver_keys (dup out) (hdupnd _ hw.out_nodup) size2 _ (fun _ => 0)]
      have hysh2 : y.shape = P1 ++ (out.map size ++ out.map size) := by
        rw [← List.append_assoc]; exact hysh
      have hyp := opPlates_of (ks := dup out) hysh2 (by rw [← hdupsize, List.length_map])
      have hsecond : ∀ (r c : κ → Nat) (g : Factor κ α), g ∈ fs' →
          g.second (restrict P1 p) r c = g.second p r c := by
        intro r c g hg
        have h1 := msgOps_prod g p (fun x => if x.1 then r x.2 else c x.2)
        have h2 := msgOps_prod g (restrict P1 p) (fun x => if x.1 then r x.2 else c x.2)
        simp only [rowKey, colKey, if_true, Bool.false_eq_true, if_false] at h1 h2
        rw [← h1, ← h2]
        congr 1
        apply List.map_congr_left
        intro op hop
        have hax := msgOps_axes g (hsh' g hg) (hlen' g hg) op hop
        exact (opElem_restrict op hax.2.1
          (by rw [hax.1]; exact isBroadcast_broadcastsTo hP1 (List.mem_map_of_mem hg)) p _).symm
      set G : (Bool × κ → Nat) → α := fun e => (fs'.map fun g =>
        g.second p (fun k => e (rowKey k)) (fun k => e (colKey k))).prod with hG
      have hstep : sumKeys ((dup out).map fun k => (k, size2 k)) (fun e =>
            m.at (joinC ((dup out).map size2).length (coord ((dup out).map e)) p) *
              y.at (joinC ((dup out).map size2).length (coord ((dup out).map e)) p)) (fun _ => 0)
          = sumKeys ((dup out).map fun k => (k, size2 k)) (fun e =>
              sumKeys ((dup K).map fun k => (k, size2 k))
              (fun e => opElem (m, dup out) p e * G e) e) (fun _ => 0) := by
        apply sumKeys_congr' _ (by simpa [Function.comp_def] using hdupnd _ hw.out_nodup)
        intro e _ he
        have he' : ∀ b, ∀ k ∈ out, e (b, k) < size k := fun b k hk =>
          he ((b, k), size k) (List.mem_map.2 ⟨(b, k), (hdupmem out _).2 hk, rfl⟩)
        rw [List.length_map]
        have hy1 : y.at (joinC (dup out).length (coord ((dup out).map e)) p)
            = y.at (joinC (dup out).length (coord ((dup out).map e)) (restrict P1 p)) :=
          opElem_restrict (y, dup out) hyp.2.2 (by rw [hyp.1]; exact BroadcastsTo.refl _) p e
        have hco : joinC (dup out).length (coord ((dup out).map e)) (restrict P1 p)
            = joinC out.length (coord (out.map fun k => e (colKey k)))
              (joinC out.length (coord (out.map fun k => e (rowKey k))) (restrict P1 p)) := by
          have := coord_append (out.map fun k => e (rowKey k)) (out.map fun k => e (colKey k)) (restrict P1 p)
          simp only [List.length_append, List.length_map] at this
          rw [← this]
          simp only [hdup, List.map_append, List.map_map, List.length_append, List.length_map]
          rfl
        have hv := hyat (restrict P1 p) (fun k => e (rowKey k)) (fun k => e (colKey k))
          (restrict_valid hP1S.2 hp) (he' true) (he' false)
        rw [hy1, hco, hv]
        rw [sumKeys_mul_left _ _ (fun e => opElem (m, dup out) p e)]
        · congr 1
          have hrc := sumKeys_rowcol K K size (fun r c => (fs'.map fun g => g.second p r c).prod) e
          rw [hG]
          refine Eq.trans ?_ hrc.symm
          congr 1
          funext r
          congr 1
          funext c
          rw [List.map_congr_left fun g hg => hsecond r c g hg]
        · intro x hx c t
          obtain ⟨k, hk, rfl⟩ := List.mem_map.1 hx
          have hko : k.2 ∉ out := by
            have := (List.mem_filter.1 ((hdupmem K k).1 hk)).2
            simpa using this
          unfold opElem
          rw [List.map_congr_left fun k' hk' => update_of_ne (by
            rintro rfl; exact hko ((hdupmem out _).1 hk')) t c]
      rw [hstep, ← sumKeys_append, ← List.map_append]
      have hp2 : (dup out ++ dup K).Perm (dup full) := by
        apply perm_of_mem_iff
        · refine List.nodup_append.2 ⟨hdupnd _ hw.out_nodup, hdupnd _ (hfnd.filter _), ?_⟩
          intro a ha b hb he
          subst he
          have := (List.mem_filter.1 ((hdupmem K a).1 hb)).2
          simp at this
          exact this ((hdupmem out a).1 ha)
        · exact hdupnd _ hfnd
        · intro x
          rw [List.mem_append, hdupmem, hdupmem, hdupmem, hK, List.mem_filter, decide_eq_true_iff]
          constructor
          · rintro (h | h)
            · exact houtfull _ h
            · exact h.1
          · intro h
            by_cases ho : x.2 ∈ out
            · exact .inl ho
            · exact .inr ⟨h, ho⟩
      rw [sumKeys_perm (hp2.map _) (by
        simpa [Function.comp_def] using hp2.nodup_iff.2 (hdupnd _ hfnd))]
      congr 1
      funext e
      have hprod : G e = opElem (U, dup f.keys) p e * ((others.flatMap msgOps).map fun op => opElem op p e).prod := by
        simp only [hG]
        rw [(hperm'.map _).prod_eq, List.map_cons, List.prod_cons]
        congr 1
        · rw [← msgOps_prod]
          simp only [msgOps, hf', hfc, Bool.not_false, if_true, List.map_cons, List.map_nil, List.prod_cons,
            List.prod_nil, mul_one, hdup]
        · rw [List.map_flatMap, List.flatMap_def, List.prod_flatten, List.map_map]
          congr 1
          apply List.map_congr_left
          intro g _
          exact (msgOps_prod g p e).symm
      rw [hprod, hargs, List.map_append, List.prod_append]
      simp only [List.map_cons, List.map_nil, List.prod_cons, List.prod_nil, mul_one]
      ring

/-- **C18** (messages).  For every number of factors, accepted key assignment, plates and moments: the
messages to a Gaussian parent `f` are the adjoints of the moments of the node.  Whatever moments `U` are put
in place of the first (second) moments of `f`, the pairing of the first (second) message `m` of the children
with the moments of the node, summed over all plates `S` of the node, equals the pairing of the message to
`f` with `U`, summed over the plates `PP` of `f`.  The message of the children has been masked, so the plates
of the mask are plates of the message. -/
theorem C18_message {setList : List κ → List κ} (hset : ListsSet setList)
    (fs : List (Factor κ α)) (out : List κ) (nd : SMNode)
    (hinit : smInit setList (fs.map Factor.node) out = .ok nd) (hsh : ∀ f ∈ fs, f.Shaped)
    (i : Nat) (f : Factor κ α) (hi : fs[i]? = some f) (hfc : f.isConst = false)
    (S PP Pm0 Pm1 mask : List Nat) (m0 m1 : Arr α)
    (hS0 : ∀ g ∈ fs, BroadcastsTo g.plates0 S) (hS1 : ∀ g ∈ fs, BroadcastsTo g.secondPlates S)
    (hPP : BroadcastsTo PP S)
    (hm0 : m0.shape = Pm0 ++ nd.shape) (hm1 : m1.shape = Pm1 ++ (nd.shape ++ nd.shape))
    (hPm0 : BroadcastsTo Pm0 S) (hPm1 : BroadcastsTo Pm1 S)
    (hmask0 : BroadcastsTo mask Pm0) (hmask1 : BroadcastsTo mask Pm1) :
    ∃ msg0 msg1 Q0 Q1, smMessage nd mask S ((fs.zip nd.inKeys).map fun x => x.1.toParent x.2) i PP f.dims m0 m1
        = .ok (msg0, msg1) ∧
      (msg0.shape = Q0 ++ f.dims ∧ BroadcastsTo Q0 PP) ∧
      (msg1.shape = Q1 ++ (f.dims ++ f.dims) ∧ BroadcastsTo Q1 PP) ∧
      (∀ U P, U.shape = P ++ f.dims → BroadcastsTo P PP →
        ∃ y, smMean nd.nKeys nd.outKeys (((setFirst fs i f U P).map (·.u0)).zip nd.inKeys) = .ok y ∧
          sumOver (S ++ nd.shape) (fun c => m0.at c * y.at c)
            = sumOver (PP ++ f.dims) fun c => msg0.at c * U.at c) ∧
      ∀ U P, U.shape = P ++ f.dims ++ f.dims → BroadcastsTo P PP →
        ∃ y, smSecond nd.nKeys nd.outKeys (((setSecond fs i f U P).zip nd.inKeys).map
            fun x => x.1.toParent x.2) = .ok y ∧
          sumOver (S ++ (nd.shape ++ nd.shape)) (fun c => m1.at c * y.at c)
            = sumOver (PP ++ (f.dims ++ f.dims)) fun c => msg1.at c * U.at c := by
  obtain ⟨hw, size, hsize⟩ := ((C18_constructor hset _ out).1).1 ⟨nd, hinit⟩
  rw [smInit_good hset hw hsize] at hinit
  cases hinit
  obtain ⟨msg0, Q0, h0, hsh0, hQ0, hadj0⟩ := message_first fs out _ size hset rfl hw hsize hsh i f hi S PP Pm0
    mask m0 hS0 hPP hm0 hPm0 hmask0
  obtain ⟨msg1, Q1, h1, hsh1, hQ1, hadj1⟩ := message_second fs out _ size hset rfl hw hsize hsh i f hi hfc S PP
    Pm1 mask m1 hS1 hPP hm1 hPm1 hmask1
  refine ⟨msg0, msg1, Q0, Q1, ?_, ⟨hsh0, hQ0⟩, ⟨hsh1, hQ1⟩, hadj0, hadj1⟩
  have hpar : ((fs.zip (smGood setList (fs.map Factor.node) out size).inKeys).map fun x => x.1.toParent x.2)
      = fs.map fun f => f.toParent (f.keys.map (setList ((fs.map Factor.node).flatMap (·.1))).idxOf) :=
    inKeys_eq
  rw [hpar]
  unfold smMessage
  rw [List.getElem?_map, hi]
  simp only [Option.map_some, Factor.toParent, hfc, Bool.false_eq_true, if_false]
  simp only [Factor.toParent] at h0 h1
  simp only [smGood]
  rw [h0]
  simp only [bind, Except.bind, pure, Except.pure]
  rw [h1]

/-- **C18** (constants).  There is no message to a parent with delta moments: the code raises. -/
theorem C18_message_constant (nd : SMNode) (mask S PP dims : List Nat) (ps : List (SMParent α)) (i : Nat)
    (p : SMParent α) (hi : ps[i]? = some p) (hc : p.isConst = true) (m0 m1 : Arr α) :
    smMessage nd mask S ps i PP dims m0 m1 = .error .notImplemented := by
  unfold smMessage
  rw [hi]
  simp only [hc, if_true]
  rfl

end

namespace SumMultiplyExample

/-- A masked message of the children of `y_i = Σ_k A_ik x_k`: the last plate is masked out. -/
def child0 : Arr ℚ := ⟨[4, 2], fun c => if c 1 < 3 then (c 0 : ℚ) + 1 else 0⟩
def child1 : Arr ℚ := ⟨[4, 2, 2], fun c => if c 2 < 3 then -(c 0 : ℚ) - 3 * c 1 else 0⟩

/-- All hypotheses of `C18_message` are met for the message to the matrix `A`, which has no plates, so the
four plates of the node are summed. -/
example : ∃ nd msg0 msg1 Q0 Q1, smInit List.dedup ([A, x].map Factor.node) ['i'] = .ok nd ∧
    smMessage nd [4] [4] (([A, x].zip nd.inKeys).map fun x => x.1.toParent x.2) 0 [] [2, 3] child0 child1
      = .ok (msg0, msg1) ∧ msg0.shape = Q0 ++ [2, 3] ∧ msg1.shape = Q1 ++ [2, 3, 2, 3] := by
  have hb : BroadcastsTo [4] [4] := ⟨le_refl _, fun k => .inr rfl⟩
  have hn : BroadcastsTo [] [4] := ⟨by simp, fun k => .inl (by simp [axisLen])⟩
  obtain ⟨nd, hnd⟩ : ∃ nd, smInit List.dedup ([A, x].map Factor.node) ['i'] = .ok nd := ⟨_, rfl⟩
  have hs : nd.shape = [2] := by cases hnd; rfl
  obtain ⟨msg0, msg1, Q0, Q1, h, h0, h1, -⟩ := C18_message listsSet [A, x] ['i'] nd hnd shaped 0 A rfl rfl
    [4] [] [4] [4] [4] child0 child1
    (by intro g hg; simp only [List.mem_cons, List.not_mem_nil, or_false] at hg; rcases hg with rfl | rfl
        · exact hn
        · exact hb)
    (by intro g hg; simp only [List.mem_cons, List.not_mem_nil, or_false] at hg; rcases hg with rfl | rfl
        · exact hn
        · exact hb)
    hn (by rw [hs]; rfl) (by rw [hs]; rfl) hb hb hb hb
  exact ⟨nd, msg0, msg1, Q0, Q1, hnd, h, h0.1, h1.1⟩

/-- The first message to `A` at `(1, 2)`: three plates, child message `2`, mean of `x_2` is `3`. -/
example : (do
    let nd ← smInit List.dedup ([A, x].map Factor.node) ['i']
    let y ← smMessage nd [4] [4] (([A, x].zip nd.inKeys).map fun x => x.1.toParent x.2) 0 [] [2, 3] child0 child1
    return (y.1.shape, y.1.get (coord [1, 2])) : Except PyErr _) = .ok ([2, 3], 18) := by decide +kernel

end SumMultiplyExample

end Verif
