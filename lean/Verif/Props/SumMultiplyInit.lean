import Verif.Lemmas.KeyedPlates

/-!
# C18: the constructor of `SumMultiply`: the accepted key assignments, the parsing of the string format
-/

namespace Verif
open Spec

section init
variable {κ : Type} [DecidableEq κ]

theorem length_setList {setList : List κ → List κ} (h : ListsSet setList) (l : List κ) :
    (setList l).length = l.length ↔ l.Nodup := by
  have hp : (setList l).Perm l.dedup :=
    (List.perm_ext_iff_of_nodup (h l).1 (List.nodup_dedup l)).2 fun k => by simp [(h l).2 k]
  rw [hp.length_eq]
  constructor
  · intro hl
    rw [← (List.dedup_sublist l).eq_of_length hl]
    exact List.nodup_dedup l
  · intro hn
    rw [List.dedup_eq_self.2 hn]

theorem forM_cases {β : Type _} (l : List β) (f : β → Except PyErr PUnit) :
    ((∀ a ∈ l, f a = .ok ⟨⟩) ∧ l.forM f = .ok ⟨⟩) ∨
      ∃ a ∈ l, ∃ e, f a = .error e ∧ l.forM f = .error e := by
  induction l with
  | nil => exact .inl ⟨by simp, rfl⟩
  | cons a l ih =>
    have hd : (a :: l).forM f = (f a >>= fun _ => l.forM f) := rfl
    cases ha : f a with
    | error e =>
      right
      exact ⟨a, by simp, e, ha, by rw [hd, ha]; rfl⟩
    | ok u =>
      rcases ih with ⟨h1, h2⟩ | ⟨b, hb, e, h1, h2⟩
      · left
        refine ⟨?_, by rw [hd, ha]; exact h2⟩
        intro b hb
        rcases List.mem_cons.1 hb with rfl | hb
        · exact ha
        · exact h1 b hb
      · right
        exact ⟨b, by simp [hb], e, h1, by rw [hd, ha]; exact h2⟩

/-- The axis length of a node for a key (`1` if it does not use the key). -/
def keyLen (key : κ) (nd : List κ × List Nat) : Nat :=
  if key ∈ nd.1 then nd.2.getD (nd.1.idxOf key) 0 else 1

theorem smSizeStep_eq (key : κ) (s : Nat) (nd : List κ × List Nat) :
    smSizeStep key s nd = mergeLen s (keyLen key nd) := by
  unfold smSizeStep mergeLen keyLen
  by_cases h : key ∈ nd.1
  · simp only [h, if_true]
    generalize nd.2.getD (nd.1.idxOf key) 0 = d
    by_cases h1 : s = 1
    · subst h1
      by_cases h2 : d = 1
      · rw [if_neg (by simp [h2]), if_pos rfl, h2]
      · rw [if_pos h2, if_pos rfl, if_pos rfl]
    · rw [if_neg h1]
      by_cases h2 : d = s
      · subst h2; simp
      · rw [if_pos h2, if_neg h1]
        by_cases h3 : d = 1
        · rw [if_neg (by simp [h3]), if_neg (by simp [h3])]
        · rw [if_pos h3, if_pos ⟨h3, h2⟩]
  · simp only [h, if_false]
    by_cases h1 : s = 1
    · simp [h1]
    · simp [h1]

theorem mem_zip_keyLen {nd : List κ × List Nat} (hl : nd.2.length = nd.1.length)
    (hn : nd.1.Nodup) {k : κ} {v : Nat} : (k, v) ∈ nd.1.zip nd.2 ↔ k ∈ nd.1 ∧ keyLen k nd = v := by
  unfold keyLen
  constructor
  · intro h
    have hk := (List.of_mem_zip h).1
    refine ⟨hk, ?_⟩
    rw [if_pos hk]
    obtain ⟨i, hi, he⟩ := List.getElem_of_mem h
    simp only [List.getElem_zip, Prod.mk.injEq] at he
    have hi' : i < nd.1.length := by simp at hi; omega
    rw [← he.1, hn.idxOf_getElem i hi', List.getD_eq_getElem?_getD,
      List.getElem?_eq_getElem (by omega)]
    simpa using he.2
  · rintro ⟨hk, he⟩
    rw [if_pos hk] at he
    have hi := List.idxOf_lt_length_of_mem hk
    rw [List.getD_eq_getElem?_getD, List.getElem?_eq_getElem (by omega)] at he
    apply List.mem_iff_getElem.2
    refine ⟨nd.1.idxOf k, by simp; omega, ?_⟩
    simp only [List.getElem_zip, Prod.mk.injEq]
    exact ⟨List.getElem_idxOf hi, by simpa using he⟩

theorem smSize_ok {nodes : List (List κ × List Nat)} (hl : ∀ nd ∈ nodes, nd.2.length = nd.1.length)
    (hn : ∀ nd ∈ nodes, nd.1.Nodup) (k : κ) (v : Nat) : smSize nodes k = .ok v ↔
      (∀ nd ∈ nodes, ∀ d, (k, d) ∈ nd.1.zip nd.2 → d = 1 ∨ d = v) ∧
        (v = 1 ∨ ∃ nd ∈ nodes, (k, v) ∈ nd.1.zip nd.2) := by
  unfold smSize
  rw [show smSizeStep k = fun s nd => mergeLen s (keyLen k nd) from by
    funext s nd; exact smSizeStep_eq k s nd, foldlM_merge]
  constructor
  · rintro ⟨_, h1, h2⟩
    refine ⟨?_, ?_⟩
    · intro nd hnd d hd
      rw [← ((mem_zip_keyLen (hl nd hnd) (hn nd hnd)).1 hd).2]
      exact h1 nd hnd
    · rcases h2 with h | ⟨nd, hnd, h⟩
      · exact .inl h
      · by_cases hk : k ∈ nd.1
        · exact .inr ⟨nd, hnd, (mem_zip_keyLen (hl nd hnd) (hn nd hnd)).2 ⟨hk, h⟩⟩
        · rw [keyLen, if_neg hk] at h
          exact .inl h.symm
  · rintro ⟨h1, h2⟩
    refine ⟨.inl rfl, ?_, ?_⟩
    · intro nd hnd
      by_cases hk : k ∈ nd.1
      · exact h1 nd hnd _ ((mem_zip_keyLen (hl nd hnd) (hn nd hnd)).2 ⟨hk, rfl⟩)
      · left; rw [keyLen, if_neg hk]
    · rcases h2 with h | ⟨nd, hnd, h⟩
      · exact .inl h
      · exact .inr ⟨nd, hnd, ((mem_zip_keyLen (hl nd hnd) (hn nd hnd)).1 h).2⟩

theorem smSize_error {nodes : List (List κ × List Nat)} {k : κ} {e : PyErr}
    (h : smSize nodes k = .error e) : e = .valueError := by
  unfold smSize at h
  rw [show smSizeStep k = fun s nd => mergeLen s (keyLen k nd) from by
    funext s nd; exact smSizeStep_eq k s nd] at h
  exact foldlM_merge_error _ _ _ h

/-- The attributes which the constructor should set. -/
def smGood (setList : List κ → List κ) (nodes : List (List κ × List Nat)) (out : List κ)
    (size : κ → Nat) : SMNode where
  nKeys := (setList (nodes.flatMap (·.1))).length
  outKeys := out.map (setList (nodes.flatMap (·.1))).idxOf
  inKeys := nodes.map fun nd => nd.1.map (setList (nodes.flatMap (·.1))).idxOf
  shape := out.map size

theorem smInit_good {setList : List κ → List κ} (hset : ListsSet setList)
    {nodes : List (List κ × List Nat)} {out : List κ} {size : κ → Nat}
    (hw : WellKeyed nodes out) (hs : KeySizes nodes size) :
    smInit setList nodes out = .ok (smGood setList nodes out size) := by
  have hfull : ∀ k, k ∈ setList (nodes.flatMap (·.1)) ↔ ∃ nd ∈ nodes, k ∈ nd.1 := by
    intro k
    rw [(hset _).2 k, List.mem_flatMap]
  have h0 : ¬ nodes.length < 1 := by
    have := List.length_pos_iff.2 hw.nonempty
    omega
  have h1 : nodes.forM (smCheckNode setList) = .ok ⟨⟩ := by
    apply forM_ok
    intro nd hnd
    unfold smCheckNode
    rw [if_neg (by simp [hw.length nd hnd]),
      if_neg (by simpa using (length_setList hset nd.1).2 (hw.nodup nd hnd))]
  have h2 : ¬ out.length ≠ (setList out).length := by
    simpa using ((length_setList hset out).2 hw.out_nodup).symm
  have h3 : out.forM (smCheckOut (setList (nodes.flatMap (·.1)))) = .ok ⟨⟩ := by
    apply forM_ok
    intro k hk
    unfold smCheckOut
    rw [if_neg (by simpa using (hfull k).2 (hw.out_mem k hk))]
  have h4 : (setList (nodes.flatMap (·.1))).mapM (smSize nodes)
      = .ok ((setList (nodes.flatMap (·.1))).map size) := by
    apply mapM_ok_of
    intro k _
    rw [smSize_ok hw.length hw.nodup]
    exact ⟨fun nd hnd d hd => hs.fits nd hnd _ hd, hs.attained k⟩
  unfold smInit
  simp only [bind, Except.bind]
  rw [if_neg h0]
  simp only [pure, Except.pure]
  rw [h1]
  simp only
  rw [if_neg h2]
  rw [h3]
  simp only [h4]
  simp only [smGood]
  congr 2
  apply List.map_congr_left
  intro k hk
  have hi := List.idxOf_lt_length_of_mem ((hfull k).2 (hw.out_mem k hk))
  rw [List.getD_eq_getElem?_getD, List.getElem?_map, List.getElem?_eq_getElem hi]
  simp

theorem smInit_bad {setList : List κ → List κ} (hset : ListsSet setList)
    {nodes : List (List κ × List Nat)} {out : List κ}
    (h : ¬ (WellKeyed nodes out ∧ ∃ size, KeySizes nodes size)) :
    smInit setList nodes out = .error .valueError := by
  unfold smInit
  simp only [bind, Except.bind, pure, Except.pure]
  by_cases h0 : nodes.length < 1
  · rw [if_pos h0]; rfl
  rw [if_neg h0]
  rcases forM_cases nodes (smCheckNode setList)
    with ⟨ha, hb⟩ | ⟨nd, hnd, e, he, hb⟩
  swap
  · have : e = .valueError := by
      unfold smCheckNode at he
      split at he
      · cases he; rfl
      · split at he
        · cases he; rfl
        · cases he
    subst this
    rw [hb]
  rw [hb]
  simp only
  have hl : ∀ nd ∈ nodes, nd.2.length = nd.1.length := by
    intro nd hnd
    by_contra hc
    have := ha nd hnd
    unfold smCheckNode at this
    rw [if_pos hc] at this
    cases this
  have hn : ∀ nd ∈ nodes, nd.1.Nodup := by
    intro nd hnd
    rw [← length_setList hset]
    by_contra hc
    have := ha nd hnd
    unfold smCheckNode at this
    rw [if_neg (by simp [hl nd hnd])] at this
    rw [if_pos hc] at this
    cases this
  by_cases h2 : out.length ≠ (setList out).length
  · rw [if_pos h2]; rfl
  rw [if_neg h2]
  rcases forM_cases out (smCheckOut (setList (nodes.flatMap (·.1))))
    with ⟨hc, hd⟩ | ⟨k, hk, e, he, hb⟩
  swap
  · have : e = .valueError := by
      unfold smCheckOut at he
      split at he
      · cases he; rfl
      · cases he
    subst this
    rw [hb]
  rw [hd]
  simp only
  cases hm : (setList (nodes.flatMap (·.1))).mapM (smSize nodes) with
  | error e =>
    obtain ⟨k, _, hk⟩ := mapM_error _ _ hm
    rw [smSize_error hk]
  | ok r =>
    exfalso
    apply h
    have hw : WellKeyed nodes out := by
      refine ⟨?_, hl, hn, ?_, ?_⟩
      · rintro rfl; simp at h0
      · rw [← length_setList hset]
        by_contra hc'
        exact h2 (fun h => hc' h.symm)
      · intro k hk
        have := hc k hk
        unfold smCheckOut at this
        split at this
        · cases this
        · rename_i hmem
          rw [not_not, (hset _).2 k, List.mem_flatMap] at hmem
          exact hmem
    refine ⟨hw, ?_⟩
    rw [mapM_ok_iff] at hm
    have hex : ∀ k, ∃ v, smSize nodes k = .ok v := by
      intro k
      by_cases hk : k ∈ setList (nodes.flatMap (·.1))
      · obtain ⟨i, hi, rfl⟩ := List.getElem_of_mem hk
        exact ⟨_, hm.2 i hi (by omega)⟩
      · refine ⟨1, (smSize_ok hl hn k 1).2 ⟨?_, .inl rfl⟩⟩
        intro nd hnd d hd
        exfalso
        apply hk
        rw [(hset _).2 k, List.mem_flatMap]
        exact ⟨nd, hnd, (List.of_mem_zip hd).1⟩
    choose size hsize using hex
    refine ⟨size, ?_, ?_⟩
    · intro nd hnd p hp
      exact ((smSize_ok hl hn p.1 _).1 (hsize p.1)).1 nd hnd p.2 hp
    · intro k
      exact ((smSize_ok hl hn k _).1 (hsize k)).2

/-- **C18** (constructor).  The constructor accepts exactly the key assignments in which the keys name
the axes of every node one to one, the output keys are distinct keys of the inputs, and the axes
sharing a key have the same length or length one; everything else raises `ValueError`.  The shape of
the variable then consists of the lengths of the output keys. -/
theorem C18_constructor {setList : List κ → List κ} (hset : ListsSet setList)
    (nodes : List (List κ × List Nat)) (out : List κ) :
    ((∃ nd, smInit setList nodes out = .ok nd) ↔
        WellKeyed nodes out ∧ ∃ size, KeySizes nodes size) ∧
      (∀ e, smInit setList nodes out = .error e → e = .valueError) ∧
      ∀ nd size, smInit setList nodes out = .ok nd → KeySizes nodes size →
        nd.shape = out.map size := by
  by_cases h : WellKeyed nodes out ∧ ∃ size, KeySizes nodes size
  · obtain ⟨hw, size, hs⟩ := h
    have := smInit_good hset hw hs
    refine ⟨⟨fun _ => ⟨hw, size, hs⟩, fun _ => ⟨_, this⟩⟩, ?_, ?_⟩
    · intro e he
      rw [this] at he
      cases he
    · intro nd size' h1 h2
      rw [smInit_good hset hw h2] at h1
      cases h1
      rfl
  · have := smInit_bad hset h
    refine ⟨⟨?_, fun h' => absurd h' h⟩, ?_, ?_⟩
    · rintro ⟨nd, hnd⟩
      rw [this] at hnd
      cases hnd
    · intro e he
      rw [this] at he
      cases he
      rfl
    · intro nd _ hnd
      rw [this] at hnd
      cases hnd

end init

/-! ## The string format -/

theorem splitComma_append (ks rest : List Char) (h : ',' ∉ ks) :
    splitComma (ks ++ ',' :: rest) = ks :: splitComma rest := by
  induction ks with
  | nil => simp [splitComma]
  | cons c ks ih =>
    have hc : c ≠ ',' := fun hc => h (by simp [hc])
    have hks : ',' ∉ ks := fun hk => h (by simp [hk])
    rw [List.cons_append, splitComma, ih hks]
    exact fun hc' => hc hc'

theorem splitComma_single (ks : List Char) (h : ',' ∉ ks) : splitComma ks = [ks] := by
  induction ks with
  | nil => rfl
  | cons c ks ih =>
    have hc : c ≠ ',' := fun hc => h (by simp [hc])
    have hks : ',' ∉ ks := fun hk => h (by simp [hk])
    rw [splitComma, ih hks]
    exact fun hc' => hc hc'

theorem splitArrow_append (ks rest : List Char) (h : '-' ∉ ks) :
    splitArrow (ks ++ '-' :: '>' :: rest) = ks :: splitArrow rest := by
  induction ks with
  | nil => simp [splitArrow]
  | cons c ks ih =>
    have hc : c ≠ '-' := fun hc => h (by simp [hc])
    have hks : '-' ∉ ks := fun hk => h (by simp [hk])
    rw [List.cons_append, splitArrow, ih hks]
    exact fun _ hc' => absurd hc' hc

theorem splitArrow_single (ks : List Char) (h : '-' ∉ ks) : splitArrow ks = [ks] := by
  induction ks with
  | nil => rfl
  | cons c ks ih =>
    have hc : c ≠ '-' := fun hc => h (by simp [hc])
    have hks : '-' ∉ ks := fun hk => h (by simp [hk])
    rw [splitArrow, ih hks]
    exact fun _ hc' => absurd hc' hc

theorem splitComma_intercalate (keysets : List (List Char)) (hne : keysets ≠ [])
    (h : ∀ ks ∈ keysets, ',' ∉ ks) : splitComma ([','].intercalate keysets) = keysets := by
  induction keysets with
  | nil => exact absurd rfl hne
  | cons ks rest ih =>
    cases rest with
    | nil =>
      have : [','].intercalate [ks] = ks := by simp [List.intercalate]
      rw [this]
      exact splitComma_single ks (h ks (by simp))
    | cons ks2 rest =>
      have : [','].intercalate (ks :: ks2 :: rest) = ks ++ ',' :: [','].intercalate (ks2 :: rest) := by
        simp [List.intercalate]
      rw [this, splitComma_append _ _ (h ks (by simp)),
        ih (by simp) (fun k hk => h k (List.mem_cons_of_mem _ hk))]

theorem minus_notMem_intercalate (keysets : List (List Char)) (h : ∀ ks ∈ keysets, '-' ∉ ks) :
    '-' ∉ [','].intercalate keysets := by
  induction keysets with
  | nil => simp [List.intercalate]
  | cons ks rest ih =>
    cases rest with
    | nil => simpa [List.intercalate] using h ks (by simp)
    | cons ks2 rest =>
      have : [','].intercalate (ks :: ks2 :: rest) = ks ++ ',' :: [','].intercalate (ks2 :: rest) := by
        simp [List.intercalate]
      rw [this]
      have h1 := h ks (by simp)
      have h2 := ih (fun k hk => h k (List.mem_cons_of_mem _ hk))
      simp only [List.mem_append, List.mem_cons, not_or]
      exact ⟨h1, by decide, h2⟩

/-- **C18** (string format).  A string which, up to white space, lists the key sets separated by
commas and then, after an arrow, the output keys is read as these key sets and output keys (keys are
single characters other than `,`, `-` and white space); without an arrow there are no output keys.
A wrong number of nodes raises `ValueError`. -/
theorem C18_parse (s : List Char) (keysets : List (List Char)) (out : List Char)
    (hne : keysets ≠ []) (hcomma : ∀ ks ∈ keysets, ',' ∉ ks) (hminus : ∀ ks ∈ keysets, '-' ∉ ks)
    (hout : '-' ∉ out) (n : Nat) :
    (s.filter (fun c => !c.isWhitespace) = [','].intercalate keysets ++ '-' :: '>' :: out →
      smParse s n = if n = keysets.length then .ok (keysets, out) else .error .valueError) ∧
    (s.filter (fun c => !c.isWhitespace) = [','].intercalate keysets →
      smParse s n = if n = keysets.length then .ok (keysets, []) else .error .valueError) := by
  have hm := minus_notMem_intercalate keysets hminus
  constructor
  · intro hs
    unfold smParse
    rw [hs, splitArrow_append _ _ hm, splitArrow_single out hout]
    simp only [List.headD_cons, splitComma_intercalate keysets hne hcomma]
    by_cases hn : n = keysets.length
    · subst hn
      simp [bind, Except.bind, pure, Except.pure]
    · have : keysets.length ≠ n := fun h => hn h.symm
      simp [hn, this, bind, Except.bind]
      rfl
  · intro hs
    unfold smParse
    rw [hs, splitArrow_single _ hm]
    simp only [List.headD_cons, splitComma_intercalate keysets hne hcomma]
    by_cases hn : n = keysets.length
    · subst hn
      simp [bind, Except.bind, pure, Except.pure]
    · have : keysets.length ≠ n := fun h => hn h.symm
      simp [hn, this, bind, Except.bind]
      rfl

/-- **C18** (`Dot`).  The string built by `Dot` for `n + 1` inputs gives every input the same single
key and no output key: the inner product. -/
theorem C18_dot (n : Nat) :
    smParse (dotString (n + 1)) (n + 1) = .ok (List.replicate (n + 1) ['i'], []) := by
  have hi : ∀ m, [','].intercalate (List.replicate (m + 1) ['i'])
      = 'i' :: (List.replicate m [',', 'i']).flatten := by
    intro m
    induction m with
    | zero => rfl
    | succ m ih =>
      have h1 : List.replicate (m + 1 + 1) ['i'] = ['i'] :: ['i'] :: List.replicate m ['i'] := rfl
      have h2 : [','].intercalate (['i'] :: ['i'] :: List.replicate m ['i'])
          = ['i'] ++ ',' :: [','].intercalate (['i'] :: List.replicate m ['i']) := by
        simp [List.intercalate]
      rw [h1, h2]
      have h3 : ['i'] :: List.replicate m ['i'] = List.replicate (m + 1) ['i'] := rfl
      rw [h3, ih]
      simp [List.replicate_succ]
  have hw : (dotString (n + 1)).filter (fun c => !c.isWhitespace) = dotString (n + 1) := by
    rw [List.filter_eq_self]
    intro c hc
    simp only [dotString, List.mem_cons, List.mem_flatten, List.mem_replicate] at hc
    rcases hc with rfl | ⟨l, ⟨_, rfl⟩, hl⟩
    · decide
    · simp at hl
      rcases hl with rfl | rfl <;> decide
  have := (C18_parse (dotString (n + 1)) (List.replicate (n + 1) ['i']) [] (by simp)
    (by simp) (by simp) (by simp) (n + 1)).2
    (by rw [hw, hi]; rfl)
  rw [this]
  simp

/-- The documented example `SumMultiply('ik,k,kj->ij', X, Y, Z)`, with white space. -/
example : smParse " ik, k,kj -> ij".toList 3
    = .ok ([['i', 'k'], ['k'], ['k', 'j']], ['i', 'j']) := by decide +kernel

/-- Its key assignment is accepted for a `(2,3)`, a `(3,)` and a `(1,4)` input. -/
example : ∃ nd, smInit (κ := Char) List.dedup
    [(['i', 'k'], [2, 3]), (['k'], [3]), (['k', 'j'], [1, 4])] ['i', 'j'] = .ok nd ∧
    nd.shape = [2, 4] := ⟨_, rfl, rfl⟩

end Verif
