import Mathlib.Tactic.NormNum
import Verif.Props.SumMultiplyMoments

/-!
# C18: the moments of `SumMultiply` do not depend on the names of the keys or on the order of the set of keys
-/

namespace Verif
open Spec

section
variable {κ κ' α : Type} [DecidableEq κ] [DecidableEq κ'] [CommSemiring α]

/-- The same input with renamed keys. -/
def Factor.rename (σ : κ → κ') (f : Factor κ α) : Factor κ' α :=
  { f with keys := f.keys.map σ }

/-- Two arrays have the same shape and elements. -/
def SameArr (y y' : Arr α) : Prop :=
  y'.shape = y.shape ∧ ∀ c, ValidIn y.shape c → y'.get c = y.get c

theorem renamed_wellKeyed {fs : List (Factor κ α)} {out : List κ} {σ : κ → κ'}
    (hσ : ∀ a b, (∃ f ∈ fs, a ∈ f.keys) → (∃ f ∈ fs, b ∈ f.keys) → σ a = σ b → a = b)
    (hw : WellKeyed (fs.map Factor.node) out) :
    WellKeyed ((fs.map (Factor.rename σ)).map Factor.node) (out.map σ) := by
  have hout : ∀ k ∈ out, ∃ f ∈ fs, k ∈ f.keys := by
    intro k hk
    obtain ⟨nd, hnd, h⟩ := hw.out_mem k hk
    obtain ⟨f, hf, rfl⟩ := List.mem_map.1 hnd
    exact ⟨f, hf, h⟩
  refine ⟨?_, ?_, ?_, ?_, ?_⟩
  · have := hw.nonempty
    simpa using this
  · intro nd hnd
    simp only [List.map_map, List.mem_map] at hnd
    obtain ⟨f, hf, rfl⟩ := hnd
    have := hw.length f.node (List.mem_map_of_mem hf)
    simpa [Factor.node, Factor.rename] using this
  · intro nd hnd
    simp only [List.map_map, List.mem_map] at hnd
    obtain ⟨f, hf, rfl⟩ := hnd
    have := hw.nodup f.node (List.mem_map_of_mem hf)
    exact (List.nodup_map_iff_inj_on this).2 fun a ha b hb h => hσ a b ⟨f, hf, ha⟩ ⟨f, hf, hb⟩ h
  · exact (List.nodup_map_iff_inj_on hw.out_nodup).2 fun a ha b hb h =>
      hσ a b (hout a ha) (hout b hb) h
  · intro k' hk'
    obtain ⟨k, hk, rfl⟩ := List.mem_map.1 hk'
    obtain ⟨f, hf, h⟩ := hout k hk
    exact ⟨_, List.mem_map_of_mem (List.mem_map_of_mem hf), List.mem_map_of_mem h⟩

theorem renamed_sizes {fs : List (Factor κ α)} {out : List κ} {σ : κ → κ'} {size : κ → Nat}
    (hσ : ∀ a b, (∃ f ∈ fs, a ∈ f.keys) → (∃ f ∈ fs, b ∈ f.keys) → σ a = σ b → a = b)
    (hs : KeySizes (fs.map Factor.node) size) :
    ∃ size', KeySizes ((fs.map (Factor.rename σ)).map Factor.node) size' ∧
      ∀ k, (∃ f ∈ fs, k ∈ f.keys) → size' (σ k) = size k := by
  classical
  let size' : κ' → Nat := fun k' =>
    if h : ∃ k, (∃ f ∈ fs, k ∈ f.keys) ∧ σ k = k' then size h.choose else 1
  have h1 : ∀ k, (∃ f ∈ fs, k ∈ f.keys) → size' (σ k) = size k := by
    intro k hk
    have hex : ∃ k', (∃ f ∈ fs, k' ∈ f.keys) ∧ σ k' = σ k := ⟨k, hk, rfl⟩
    simp only [size', dif_pos hex]
    rw [hσ _ _ hex.choose_spec.1 hk hex.choose_spec.2]
  have hzip : ∀ f : Factor κ α, (f.keys.map σ).zip f.dims = (f.keys.zip f.dims).map (Prod.map σ id) :=
    fun f => List.zip_map_left
  refine ⟨size', ⟨?_, ?_⟩, h1⟩
  · intro nd hnd p hp
    simp only [List.map_map, List.mem_map] at hnd
    obtain ⟨f, hf, rfl⟩ := hnd
    change p ∈ (f.keys.map σ).zip f.dims at hp
    rw [hzip, List.mem_map] at hp
    obtain ⟨⟨k, d⟩, hp, rfl⟩ := hp
    simp only [Prod.map, id]
    rw [h1 k ⟨f, hf, (List.of_mem_zip hp).1⟩]
    exact hs.fits f.node (List.mem_map_of_mem hf) _ hp
  · intro k'
    by_cases hex : ∃ k, (∃ f ∈ fs, k ∈ f.keys) ∧ σ k = k'
    · obtain ⟨k, hk, rfl⟩ := hex
      rw [h1 k hk]
      rcases hs.attained k with h | ⟨nd, hnd, h⟩
      · exact .inl h
      · obtain ⟨f, hf, rfl⟩ := List.mem_map.1 hnd
        refine .inr ⟨_, List.mem_map_of_mem (List.mem_map_of_mem hf), ?_⟩
        change (σ k, size k) ∈ (f.keys.map σ).zip f.dims
        rw [hzip]
        exact List.mem_map.2 ⟨_, h, rfl⟩
    · left
      simp only [size', dif_neg hex]

/-- A valid coordinate of an array with plates and named axes as an assignment. -/
theorem coord_assign (P : List Nat) (out : List κ) (size : κ → Nat) {c : Nat → Nat}
    (hnd : out.Nodup) (hc : ValidIn (P ++ out.map size) c) :
    c = joinC out.length (coord (out.map fun k => c (out.length - 1 - out.idxOf k)))
      (fun j => c (j + out.length)) ∧
    ValidIn P (fun j => c (j + out.length)) ∧
    ∀ k ∈ out, c (out.length - 1 - out.idxOf k) < size k := by
  refine ⟨?_, ?_, ?_⟩
  · funext i
    unfold joinC
    split
    · rename_i h
      rw [coord_map_getD _ _ _ h, hnd.idxOf_getElem]
      congr 1
      omega
    · congr 1
      omega
  · intro j
    have := hc (j + out.length)
    rw [axisLen_append, if_neg (by simp), List.length_map, Nat.add_sub_cancel] at this
    exact this
  · intro k hk
    have hi := List.idxOf_lt_length_of_mem hk
    have := hc (out.length - 1 - out.idxOf k)
    rw [axisLen_append, if_pos (by simp; omega), axisLen_map_len _ _ _ (by omega)] at this
    have e : out.length - 1 - (out.length - 1 - out.idxOf k) = out.idxOf k := by omega
    simp only [e] at this
    rwa [List.getElem_idxOf hi] at this

theorem first_rename (σ : κ → κ') (f : Factor κ α) (p : Nat → Nat) (e : κ' → Nat) :
    (f.rename σ).first p e = f.first p (fun k => e (σ k)) := by
  simp only [Factor.first, Factor.rename, List.length_map, List.map_map]
  rfl

theorem second_rename (σ : κ → κ') (f : Factor κ α) (p : Nat → Nat) (r c : κ' → Nat) :
    (f.rename σ).second p r c = f.second p (fun k => r (σ k)) (fun k => c (σ k)) := by
  unfold Factor.second
  rw [first_rename, first_rename]
  simp only [Factor.rename, List.length_map, List.map_map]
  rfl

/-- **C18** (key names).  Renaming the keys injectively, and listing the set of keys in another order,
changes neither the acceptance by the constructor nor the shape of the node nor its moments. -/
theorem C18_renaming {setList : List κ → List κ} (hset : ListsSet setList)
    {setList' : List κ' → List κ'} (hset' : ListsSet setList')
    (fs : List (Factor κ α)) (out : List κ) (nd : SMNode)
    (hinit : smInit setList (fs.map Factor.node) out = .ok nd) (hsh : ∀ f ∈ fs, f.Shaped)
    (P0 P1 : List Nat) (hP0 : IsBroadcast (fs.map (·.plates0)) P0)
    (hP1 : IsBroadcast (fs.map (·.secondPlates)) P1) (σ : κ → κ')
    (hσ : ∀ a b, (∃ f ∈ fs, a ∈ f.keys) → (∃ f ∈ fs, b ∈ f.keys) → σ a = σ b → a = b) :
    ∃ nd', smInit setList' ((fs.map (Factor.rename σ)).map Factor.node) (out.map σ) = .ok nd' ∧
      nd'.shape = nd.shape ∧
      ∃ y0 y0' y1 y1',
        smMean nd.nKeys nd.outKeys ((fs.map (·.u0)).zip nd.inKeys) = .ok y0 ∧
        smMean nd'.nKeys nd'.outKeys ((fs.map (·.u0)).zip nd'.inKeys) = .ok y0' ∧
        smSecond nd.nKeys nd.outKeys ((fs.zip nd.inKeys).map fun x => x.1.toParent x.2) = .ok y1 ∧
        smSecond nd'.nKeys nd'.outKeys ((fs.zip nd'.inKeys).map fun x => x.1.toParent x.2) = .ok y1' ∧
        SameArr y0 y0' ∧ SameArr y1 y1' := by
  classical
  obtain ⟨hw, size, hs⟩ := ((C18_constructor hset _ out).1).1 ⟨nd, hinit⟩
  have hw' := renamed_wellKeyed hσ hw
  obtain ⟨size', hs', hsz⟩ := renamed_sizes (out := out) hσ hs
  have hinit' := smInit_good hset' hw' hs'
  have hgood := smInit_good hset hw hs
  rw [hinit] at hgood
  cases hgood
  have houtu : ∀ k ∈ out, ∃ f ∈ fs, k ∈ f.keys := by
    intro k hk
    obtain ⟨nd, hnd, h⟩ := hw.out_mem k hk
    obtain ⟨f, hf, rfl⟩ := List.mem_map.1 hnd
    exact ⟨f, hf, h⟩
  set K : List κ := (fs.flatMap (·.keys)).dedup.filter (· ∉ out) with hKdef
  have hKnd : K.Nodup := (List.nodup_dedup _).filter _
  have hK : ∀ k, k ∈ K ↔ (∃ f ∈ fs, k ∈ f.keys) ∧ k ∉ out := by
    intro k
    simp [hKdef, List.mem_filter]
  have hKu : ∀ k ∈ K, ∃ f ∈ fs, k ∈ f.keys := fun k hk => ((hK k).1 hk).1
  have hKnd' : (K.map σ).Nodup := (List.nodup_map_iff_inj_on hKnd).2
    fun a ha b hb h => hσ a b (hKu a ha) (hKu b hb) h
  have hK' : ∀ k, k ∈ K.map σ ↔
      (∃ f ∈ fs.map (Factor.rename σ), k ∈ f.keys) ∧ k ∉ out.map σ := by
    intro k'
    simp only [List.mem_map, exists_exists_and_eq_and, Factor.rename]
    constructor
    · rintro ⟨k, hk, rfl⟩
      obtain ⟨f, hf, hfk⟩ := hKu k hk
      refine ⟨⟨f, hf, k, hfk, rfl⟩, ?_⟩
      rintro ⟨o, ho, he⟩
      have := hσ o k (houtu o ho) (hKu k hk) he
      subst this
      exact ((hK o).1 hk).2 ho
    · rintro ⟨⟨f, hf, k, hfk, rfl⟩, hno⟩
      exact ⟨k, (hK k).2 ⟨⟨f, hf, hfk⟩, fun ho => hno ⟨k, ho, rfl⟩⟩, rfl⟩
  have hsh' : ∀ f ∈ fs.map (Factor.rename σ), f.Shaped := by
    intro f hf
    obtain ⟨g, hg, rfl⟩ := List.mem_map.1 hf
    exact ⟨(hsh g hg).u0, (hsh g hg).u1⟩
  obtain ⟨y0, h0, hsh0, hat0⟩ := C18_first_moment hset fs out _ size hinit hs hsh P0 hP0 K hKnd hK
  obtain ⟨y1, h1, hsh1, hat1⟩ := C18_second_moment hset fs out _ size hinit hs hsh P1 hP1 K hKnd hK
  obtain ⟨y0', h0', hsh0', hat0'⟩ := C18_first_moment hset' (fs.map (Factor.rename σ)) (out.map σ) _
    size' hinit' hs' hsh' P0 (by rw [List.map_map]; exact hP0) (K.map σ) hKnd' hK'
  obtain ⟨y1', h1', hsh1', hat1'⟩ := C18_second_moment hset' (fs.map (Factor.rename σ)) (out.map σ) _
    size' hinit' hs' hsh' P1 (by rw [List.map_map]; exact hP1) (K.map σ) hKnd' hK'
  have hshape : (out.map σ).map size' = out.map size := by
    rw [List.map_map]
    exact List.map_congr_left fun k hk => hsz k (houtu k hk)
  have hidx : ∀ k ∈ out, (out.map σ).idxOf (σ k) = out.idxOf k := by
    intro k hk
    have hi := List.idxOf_lt_length_of_mem hk
    have hget : (out.map σ)[out.idxOf k]'(by simpa using hi) = σ k := by simp
    rw [← hget]
    exact hw'.out_nodup.idxOf_getElem _ _
  have hlist : ((K.map σ).map fun k => (k, size' k))
      = (K.map fun k => (k, size k)).map fun p => (σ p.1, p.2) := by
    rw [List.map_map, List.map_map]
    apply List.map_congr_left
    intro k hk
    simp only [Function.comp, hsz k (hKu k hk)]
  refine ⟨_, hinit', hshape, y0, y0', y1, y1', h0, ?_, h1, ?_, ⟨?_, ?_⟩, ⟨?_, ?_⟩⟩
  · rw [← h0']
    simp only [List.map_map]
    rfl
  · rw [← h1']
    congr 1
    simp only [List.zip_map_left, List.map_map]
    rfl
  · rw [hsh0', hsh0]
    show P0 ++ (out.map σ).map size' = P0 ++ out.map size
    rw [hshape]
  · intro c hc
    have hcv : ValidIn y0'.shape c := by
      rw [hsh0']
      show ValidIn (P0 ++ (out.map σ).map size') c
      rw [hshape]
      rw [hsh0] at hc
      exact hc
    rw [← y0.at_of_valid hc, ← y0'.at_of_valid hcv]
    rw [hsh0] at hc
    rw [hsh0'] at hcv
    obtain ⟨he, hp, hlt⟩ := coord_assign P0 out size hw.out_nodup hc
    obtain ⟨he', hp', hlt'⟩ := coord_assign P0 (out.map σ) size' hw'.out_nodup hcv
    conv_lhs => rw [he']
    conv_rhs => rw [he]
    rw [hat0 _ _ hp hlt, hat0' _ _ hp' hlt', hlist]
    simp only [List.map_map, List.length_map]
    have hF : (fun e : κ' → Nat => (fs.map ((fun f => f.first (fun j => c (j + out.length)) e) ∘
        Factor.rename σ)).prod) = fun e => (fun e => (fs.map fun f =>
          f.first (fun j => c (j + out.length)) e).prod) (e ∘ σ) := by
      funext e
      simp only [Function.comp_def]
      congr 1
      apply List.map_congr_left
      intro f _
      exact first_rename σ f _ e
    have hr := sumKeys_rename (K.map fun k => (k, size k)) (fun e => (fs.map fun f =>
          f.first (fun j => c (j + out.length)) e).prod) σ (fun k => ∃ f ∈ fs, k ∈ f.keys)
      (by
        intro e e' hee
        congr 1
        apply List.map_congr_left
        intro f hf
        unfold Factor.first
        congr 3
        exact List.map_congr_left fun k hk => hee k ⟨f, hf, hk⟩) hσ
      (by simpa using hKu) (fun k => c (out.length - 1 - (out.map σ).idxOf k))
      (fun k => c (out.length - 1 - (out.map σ).idxOf (σ k))) (fun _ _ => rfl)
    simp only [List.map_map] at hr
    rw [hF, hr]
    apply sumKeys_base _ _ (fun k => ∃ f ∈ fs, k ∈ f.keys)
    · intro e e' hee
      congr 1
      apply List.map_congr_left
      intro f hf
      unfold Factor.first
      congr 3
      exact List.map_congr_left fun k hk => hee k ⟨f, hf, hk⟩
    · intro k hk hkK
      have hko : k ∈ out := by
        by_contra hno
        exact hkK (by simpa using (hK k).2 ⟨hk, hno⟩)
      rw [hidx k hko]
  · rw [hsh1', hsh1]
    show P1 ++ (out.map σ).map size' ++ (out.map σ).map size' = P1 ++ out.map size ++ out.map size
    rw [hshape]
  · intro c hc
    have hcv : ValidIn y1'.shape c := by
      rw [hsh1']
      show ValidIn (P1 ++ (out.map σ).map size' ++ (out.map σ).map size') c
      rw [hshape]
      rw [hsh1] at hc
      exact hc
    rw [← y1.at_of_valid hc, ← y1'.at_of_valid hcv]
    rw [hsh1] at hc
    rw [hsh1'] at hcv
    obtain ⟨he, hp, hlt⟩ := coord_assign (P1 ++ out.map size) out size hw.out_nodup hc
    obtain ⟨hee, hpp, hltt⟩ := coord_assign P1 out size hw.out_nodup hp
    obtain ⟨he', hp', hlt'⟩ := coord_assign (P1 ++ (out.map σ).map size') (out.map σ) size'
      hw'.out_nodup hcv
    obtain ⟨hee', hpp', hltt'⟩ := coord_assign P1 (out.map σ) size' hw'.out_nodup hp'
    conv_lhs => rw [he', hee']
    conv_rhs => rw [he, hee]
    rw [hat1 _ _ _ hpp hltt hlt, hat1' _ _ _ hpp' hltt' hlt', hlist]
    simp only [List.map_map, List.length_map]
    set p : Nat → Nat := fun j => c (j + out.length + out.length) with hpdef
    set used : κ → Prop := fun k => ∃ f ∈ fs, k ∈ f.keys with hused
    set G : (κ → Nat) → (κ → Nat) → α := fun r c => (fs.map fun f => f.second p r c).prod with hG
    have hGu : ∀ r r' c c', (∀ k, used k → r k = r' k) → (∀ k, used k → c k = c' k) →
        G r c = G r' c' := by
      intro r r' c c' hr hc
      simp only [hG]
      congr 1
      apply List.map_congr_left
      intro f hf
      have e1 : f.keys.map r = f.keys.map r' := List.map_congr_left fun k hk => hr k ⟨f, hf, hk⟩
      have e2 : f.keys.map c = f.keys.map c' := List.map_congr_left fun k hk => hc k ⟨f, hf, hk⟩
      unfold Factor.second Factor.first
      rw [e1, e2]
    have hF : ∀ r c : κ' → Nat, (fs.map ((fun f => f.second p r c) ∘ Factor.rename σ)).prod
        = G (r ∘ σ) (c ∘ σ) := by
      intro r c
      simp only [hG]
      congr 1
      apply List.map_congr_left
      intro f _
      exact second_rename σ f p r c
    have hbase : ∀ k, used k → k ∉ (K.map fun k => (k, size k)).map (·.1) → k ∈ out := by
      intro k hk hkK
      by_contra hno
      exact hkK (by simpa using (hK k).2 ⟨hk, hno⟩)
    have inner : ∀ (r : κ → Nat) (d : Nat → Nat),
        sumKeys (K.map ((fun p : κ × Nat => (σ p.1, p.2)) ∘ fun k => (k, size k)))
          (fun c => G r (c ∘ σ)) (fun k => d ((out.map σ).idxOf k))
        = sumKeys (K.map fun k => (k, size k)) (fun c => G r c) (fun k => d (out.idxOf k)) := by
      intro r d
      have hr := sumKeys_rename (K.map fun k => (k, size k)) (fun c => G r c) σ used
        (fun e e' h => hGu r r e e' (fun _ _ => rfl) h) hσ (by simpa using hKu)
        (fun k => d ((out.map σ).idxOf k)) (fun k => d ((out.map σ).idxOf (σ k))) (fun _ _ => rfl)
      simp only [List.map_map] at hr
      rw [hr]
      apply sumKeys_base _ _ used (fun e e' h => hGu r r e e' (fun _ _ => rfl) h)
      intro k hk hkK
      rw [hidx k (hbase k hk hkK)]
    simp only [hF]
    set d : Nat → Nat := fun i => c (out.length - 1 - i) with hd
    have e1 : ∀ r : κ' → Nat, sumKeys (K.map ((fun p : κ × Nat => (σ p.1, p.2)) ∘ fun k => (k, size k)))
        (fun c => G (r ∘ σ) (c ∘ σ)) (fun k => c (out.length - 1 - (out.map σ).idxOf k))
        = sumKeys (K.map fun k => (k, size k)) (fun c => G (r ∘ σ) c) (fun k => d (out.idxOf k)) :=
      fun r => inner (r ∘ σ) d
    simp only [e1]
    set H : (κ → Nat) → α := fun r =>
      sumKeys (K.map fun k => (k, size k)) (fun c => G r c) (fun k => d (out.idxOf k)) with hH
    have hHu : ∀ r r', (∀ k, used k → r k = r' k) → H r = H r' := by
      intro r r' h
      simp only [hH]
      congr 1
      funext c
      exact hGu r r' c c h (fun _ _ => rfl)
    have hr := sumKeys_rename (K.map fun k => (k, size k)) H σ used hHu hσ (by simpa using hKu)
        (fun k => c (out.length - 1 - (out.map σ).idxOf k + out.length))
        (fun k => c (out.length - 1 - (out.map σ).idxOf (σ k) + out.length)) (fun _ _ => rfl)
    simp only [List.map_map] at hr
    show sumKeys _ (fun r => H (r ∘ σ)) _ = _
    rw [hr]
    apply sumKeys_base _ _ used hHu
    intro k hk hkK
    rw [hidx k (hbase k hk hkK)]

end

/-! ## A concrete node: `SumMultiply('ik,k->i', A, x)` -/

namespace SumMultiplyExample

/-- A random `2×3` matrix with mean `2(k+2i+1)` and second moment `5(k+2i+1)(k'+2i'+1)`. -/
def A : Factor Char ℚ where
  keys := ['i', 'k']
  dims := [2, 3]
  isConst := false
  u0 := ⟨[2, 3], fun c => 2 * (c 0 + 2 * c 1 + 1)⟩
  u1 := ⟨[2, 3, 2, 3], fun c => 5 * (c 2 + 2 * c 3 + 1) * (c 0 + 2 * c 1 + 1)⟩
  plates0 := []
  plates1 := []

/-- A random vector with mean `k+1` and second moment `2(k+1)(k'+1)`, for four plates. -/
def x : Factor Char ℚ where
  keys := ['k']
  dims := [3]
  isConst := false
  u0 := ⟨[4, 3], fun c => c 0 + 1⟩
  u1 := ⟨[4, 3, 3], fun c => 2 * (c 1 + 1) * (c 0 + 1)⟩
  plates0 := [4]
  plates1 := [4]

/-- The mean over two fair coins. -/
def E : (Bool × Bool → ℚ) →ₗ[ℚ] ℚ where
  toFun f := (f (true, true) + f (true, false) + f (false, true) + f (false, false)) / 4
  map_add' f g := by simp only [Pi.add_apply]; ring
  map_smul' a f := by simp only [Pi.smul_apply, smul_eq_mul, RingHom.id_apply]; ring

/-- The random matrix (`1` or `3` times) and the random vector (`0` or `2` times). -/
def xs : List ((Nat → Nat) → Bool × Bool → ℚ) :=
  [fun c ω => (if ω.1 then 1 else 3) * (c 0 + 2 * c 1 + 1), fun c ω => (if ω.2 then 0 else 2) * (c 0 + 1)]

def size : Char → Nat := fun k => if k = 'i' then 2 else if k = 'k' then 3 else 1

theorem sizes : KeySizes ([A, x].map Factor.node) size := by
  refine ⟨?_, ?_⟩
  · simp only [List.map_cons, List.map_nil, A, x, Factor.node, List.mem_cons, List.not_mem_nil,
      or_false, forall_eq_or_imp, forall_eq, List.zip_cons_cons, List.zip_nil_right]
    decide
  · intro k
    by_cases h : k = 'i'
    · subst h
      exact .inr ⟨A.node, by simp, by simp [A, Factor.node, size]⟩
    · by_cases h' : k = 'k'
      · subst h'
        exact .inr ⟨A.node, by simp, by simp [A, Factor.node, size]⟩
      · exact .inl (by simp [size, h, h'])

theorem listsSet : ListsSet (List.dedup (α := Char)) := fun l =>
  ⟨List.nodup_dedup l, fun _ => List.mem_dedup⟩

theorem shaped : ∀ f ∈ [A, x], f.Shaped := by
  intro f hf
  simp only [List.mem_cons, List.not_mem_nil, or_false] at hf
  rcases hf with rfl | rfl <;> exact ⟨rfl, fun _ => rfl⟩

theorem plates : IsBroadcast [[], [4]] [4] :=
  ⟨by simp, .inr ⟨[4], by simp, rfl⟩, by
    intro k s hs
    simp only [List.mem_cons, List.not_mem_nil, or_false] at hs
    rcases hs with rfl | rfl
    · exact .inl (by simp [axisLen])
    · exact .inr rfl, by
    intro k
    by_cases h : axisLen [4] k = 1
    · exact .inl h
    · exact .inr ⟨[4], by simp, rfl⟩⟩

theorem keys : ∀ k, k ∈ ['k'] ↔ (∃ f ∈ [A, x], k ∈ f.keys) ∧ k ∉ ['i'] := by
  intro k
  simp only [List.mem_cons, List.not_mem_nil, or_false, exists_eq_or_imp, exists_eq_left, A, x]
  constructor
  · rintro rfl
    exact ⟨.inl (.inr rfl), by decide⟩
  · rintro ⟨(h | h) | h, hn⟩
    · exact absurd h hn
    · exact h
    · exact h

/-- All hypotheses of the expectation theorem are met: the moments of the node are the expectations of
`y_i = Σ_k A_ik x_k` and of `y_i y_j`. -/
example : ∃ nd y0 y1, smInit List.dedup ([A, x].map Factor.node) ['i'] = .ok nd ∧
    smMean nd.nKeys nd.outKeys (([A, x].map (·.u0)).zip nd.inKeys) = .ok y0 ∧
    smSecond nd.nKeys nd.outKeys (([A, x].zip nd.inKeys).map fun x => x.1.toParent x.2) = .ok y1 ∧
    ∀ p, ValidIn [4] p → (∀ e : Char → Nat, e 'i' < 2 →
      y0.at (joinC 1 (coord [e 'i']) p) = E (contraction [A, x] xs ['k'] size e)) ∧
      ∀ r c : Char → Nat, r 'i' < 2 → c 'i' < 2 →
      y1.at (joinC 1 (coord [c 'i']) (joinC 1 (coord [r 'i']) p)) =
        E (fun ω => contraction [A, x] xs ['k'] size r ω * contraction [A, x] xs ['k'] size c ω) := by
  obtain ⟨nd, hnd⟩ : ∃ nd, smInit List.dedup ([A, x].map Factor.node) ['i'] = .ok nd := ⟨_, rfl⟩
  obtain ⟨y0, y1, h0, h1, h⟩ := C18_expectation listsSet [A, x] ['i'] nd size hnd sizes shaped
    [4] [4] plates plates ['k'] (by simp) keys
  refine ⟨nd, y0, y1, hnd, h0, h1, ?_⟩
  intro p hp
  have := h (Bool × Bool) E xs p rfl ?_ ?_ ?_ ?_
  · refine ⟨fun e he => this.1 e hp ?_, fun r c hr hc => this.2 r c hp ?_ ?_⟩
    · simpa [size] using he
    · simpa [size] using hr
    · simpa [size] using hc
  · intro fx hfx e
    simp only [xs, List.zip_cons_cons, List.zip_nil_right, List.mem_cons, List.not_mem_nil,
      or_false] at hfx
    rcases hfx with rfl | rfl <;>
      simp [E, A, x, Factor.first, Arr.at, restrict, axisLen, joinC, coord] <;> ring
  · intro fx hfx r c
    simp only [xs, List.zip_cons_cons, List.zip_nil_right, List.mem_cons, List.not_mem_nil,
      or_false] at hfx
    rcases hfx with rfl | rfl <;>
      simp [E, A, x, Factor.second, Arr.at, restrict, axisLen, joinC, coord] <;> ring
  · intro e
    simp [E, A, x, xs, coord]
    ring
  · intro r c
    simp [E, A, x, xs, coord]
    ring

/-- The mean of `y_1` at the plate 2: `Σ_k 2(k+3)(k+1) = 6 + 16 + 30 = 52`. -/
example : (do
    let nd ← smInit List.dedup ([A, x].map Factor.node) ['i']
    let y ← smMean nd.nKeys nd.outKeys (([A, x].map (·.u0)).zip nd.inKeys)
    return (y.shape, y.get (coord [2, 1])) : Except PyErr _) = .ok ([4, 2], 52) := by decide +kernel

/-- The hypotheses of the renaming theorem are met by the renaming `i ↦ 7`, `k ↦ 2` to integer keys. -/
example : ∃ nd', smInit (κ := Nat) (fun l => l.dedup.reverse)
    (([A, x].map (Factor.rename fun k => if k = 'i' then 7 else 2)).map Factor.node) [7] = .ok nd' ∧
    nd'.shape = [2] := by
  obtain ⟨nd', h, hs, -⟩ := C18_renaming listsSet (setList' := fun l : List Nat => l.dedup.reverse)
    (fun l => ⟨List.nodup_reverse.2 (List.nodup_dedup l), fun _ => by simp⟩) [A, x] ['i'] _ rfl shaped [4] [4]
    plates plates (fun k => if k = 'i' then 7 else 2) (by
      intro a b ha hb h
      simp only [List.mem_cons, List.not_mem_nil, or_false, exists_eq_or_imp, exists_eq_left, A, x]
        at ha hb
      rcases ha with (rfl | rfl) | rfl <;> rcases hb with (rfl | rfl) | rfl <;> simp_all)
  exact ⟨nd', h, hs⟩

/-- Gaussian-gamma inputs: the hypotheses are met by a plate of four precisions and a constant. -/
example : ∃ x2 x3,
    smGamma [(false, ⟨[4], fun c => (c 0 : ℚ) + 1⟩), (true, ⟨[], fun _ => 5⟩)] = .ok x2 ∧
    smLogGamma [(false, ⟨[4], fun c => (c 0 : ℚ) - 2⟩), (true, ⟨[], fun _ => 5⟩)] = .ok x3 ∧
    x2.at (coord [3]) = 4 ∧ x3.at (coord [3]) = 1 := by
  have hb : BroadcastsTo [4] [4] := ⟨le_refl _, fun k => .inr rfl⟩
  have hn : BroadcastsTo [] [4] := ⟨by simp, fun k => .inl (by simp [axisLen])⟩
  obtain ⟨x2, x3, h2, h3, -, -, hv2, hv3⟩ := C18_gamma_moments (α := ℚ)
    [(false, ⟨[4], fun c => (c 0 : ℚ) + 1⟩, ⟨[4], fun c => (c 0 : ℚ) - 2⟩),
      (true, ⟨[], fun _ => 5⟩, ⟨[], fun _ => 5⟩)] [4]
    (by simp [hb, hn]) (by simp [hb, hn])
  refine ⟨x2, x3, h2, h3, ?_, ?_⟩
  · rw [hv2]; simp [Arr.at, restrict, axisLen, coord]; norm_num
  · rw [hv3]; simp [Arr.at, restrict, axisLen, coord]; norm_num

end SumMultiplyExample

end Verif
