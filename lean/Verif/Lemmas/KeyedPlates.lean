import Verif.Lemmas.Keyed
import Verif.Lemmas.Reshape
import Verif.Props.Gate

/-! # Helper lemmas: contractions of arrays with plates and named axes

The axes of an operand `(X, ks)` are its plates (named `inl j`, `j` counted from the right) followed by
one axis per key (named `inr k`). -/

namespace Verif
open Spec Function Sum

variable {κ α : Type}

/-- Names of `n` plate axes. -/
def plateNames (κ : Type) (n : Nat) : List (Nat ⊕ κ) := (List.range n).reverse.map inl

/-- Names of all axes of an operand. -/
def axisNames (n : Nat) (ks : List κ) : List (Nat ⊕ κ) := plateNames κ n ++ ks.map inr

theorem length_axisNames (n : Nat) (ks : List κ) : (axisNames n ks).length = n + ks.length := by
  simp [axisNames, plateNames]

theorem mem_axisNames_inl {n : Nat} {ks : List κ} {j : Nat} : inl j ∈ axisNames n ks ↔ j < n := by
  simp [axisNames, plateNames]

theorem mem_axisNames_inr {n : Nat} {ks : List κ} {k : κ} : inr k ∈ axisNames n ks ↔ k ∈ ks := by
  simp [axisNames, plateNames]

theorem nodup_axisNames {n : Nat} {ks : List κ} (h : ks.Nodup) : (axisNames n ks).Nodup := by
  unfold axisNames plateNames
  rw [List.nodup_append]
  refine ⟨?_, h.map inr_injective, ?_⟩
  · exact (List.nodup_reverse.2 List.nodup_range).map inl_injective
  · intro a ha b hb he
    simp at ha hb
    obtain ⟨j, _, rfl⟩ := ha
    obtain ⟨k, _, rfl⟩ := hb
    cases he

/-- The label function. -/
def axisLabel (b : Nat) (ℓ : κ → Nat) : Nat ⊕ κ → Nat
  | inl j => b + j
  | inr k => ℓ k

theorem map_axisLabel (b n : Nat) (ℓ : κ → Nat) (ks : List κ) :
    (axisNames n ks).map (axisLabel b ℓ) = plateLabels b n ++ ks.map ℓ := by
  simp only [axisNames, plateNames, plateLabels, List.map_append, List.map_map]
  rfl

theorem eq_map_axisLen (P : List Nat) : P = (List.range P.length).reverse.map (axisLen P) := by
  apply List.ext_getElem
  · simp
  · intro i h1 h2
    simp only [List.getElem_map, List.getElem_reverse, List.getElem_range, List.length_range]
    rw [axisLen_eq_getElem h1]

theorem mem_zip_axisNames {P D : List Nat} {ks : List κ} {l : Nat ⊕ κ} {d : Nat} :
    (l, d) ∈ (axisNames P.length ks).zip (P ++ D) ↔
      match l with
      | inl j => j < P.length ∧ d = axisLen P j
      | inr k => (k, d) ∈ ks.zip D := by
  unfold axisNames plateNames
  rw [List.zip_append (by simp), List.mem_append]
  conv_lhs => rw [show (List.map inl (List.range P.length).reverse).zip P =
    (List.map (inl (β := κ)) (List.range P.length).reverse).zip
      ((List.range P.length).reverse.map (axisLen P)) by rw [← eq_map_axisLen P]]
  rw [List.zip_map', List.zip_map_left, List.mem_map, List.mem_map]
  cases l with
  | inl j =>
    constructor
    · rintro (⟨a, ha, he⟩ | ⟨a, ha, he⟩)
      · rw [Prod.mk.injEq, inl.injEq] at he
        obtain ⟨rfl, rfl⟩ := he
        exact ⟨by simpa using ha, rfl⟩
      · have := congrArg Prod.fst he
        cases this
    · rintro ⟨h, rfl⟩
      exact .inl ⟨j, by simpa using h, rfl⟩
  | inr k =>
    constructor
    · rintro (⟨a, ha, he⟩ | ⟨a, ha, he⟩)
      · simp at he
      · simp only [Prod.map, id, Prod.mk.injEq, inr.injEq] at he
        obtain ⟨rfl, rfl⟩ := he
        exact ha
    · intro h
      exact .inr ⟨(k, d), h, rfl⟩

/-- The coordinate of an assignment of plates and keys. -/
theorem coord_axisNames (n : Nat) (ks : List κ) (e : Nat ⊕ κ → Nat) (i : Nat)
    (hi : i < n + ks.length) :
    coord ((axisNames n ks).map e) i
      = joinC ks.length (coord (ks.map fun k => e (inr k))) (fun j => e (inl j)) i := by
  rw [coord_map_getD _ _ _ (by rw [length_axisNames]; exact hi)]
  simp only [length_axisNames]
  unfold axisNames joinC
  by_cases h : i < ks.length
  · rw [if_pos h, List.getElem_append_right (by simp [plateNames]; omega)]
    rw [coord_map_getD _ _ _ h]
    simp only [plateNames, List.length_map, List.length_reverse, List.length_range,
      List.getElem_map]
    congr 3
    omega
  · rw [if_neg h, List.getElem_append_left (by simp [plateNames]; omega)]
    simp only [plateNames, List.getElem_map, List.getElem_reverse, List.getElem_range,
      List.length_range]
    congr 2
    omega

theorem at_axisNames {X : Arr α} {n : Nat} {ks : List κ} (h : X.shape.length = n + ks.length)
    (e : Nat ⊕ κ → Nat) :
    X.at (coord ((axisNames n ks).map e))
      = X.at (joinC ks.length (coord (ks.map fun k => e (inr k))) (fun j => e (inl j))) := by
  apply X.at_congr
  intro i hi
  apply coord_axisNames
  by_contra hc
  exact hi (axisLen_of_ge (by omega))

theorem axisLen_map_len (ks : List κ) (g : κ → Nat) (i : Nat) (hi : i < ks.length) :
    axisLen (ks.map g) i = g (ks[ks.length - 1 - i]'(by omega)) := by
  have := axisLen_eq_getElem (r := ks.map g) (j := ks.length - 1 - i) (by simp; omega)
  simp only [List.length_map] at this
  rw [show ks.length - 1 - (ks.length - 1 - i) = i by omega] at this
  rw [this]
  simp

theorem validIn_coord_map (ks : List κ) (g e : κ → Nat) (h : ∀ k ∈ ks, e k < g k) :
    ValidIn (ks.map g) (coord (ks.map e)) := by
  intro i
  by_cases hi : i < ks.length
  · rw [coord_map_getD _ _ _ hi, axisLen_map_len _ _ _ hi]
    exact h _ (List.getElem_mem _)
  · rw [axisLen_of_ge (by simpa using hi)]
    unfold coord
    rw [List.getD_eq_getElem?_getD, List.getElem?_eq_none (by simpa using hi)]
    simp

/-- `np.einsum` as called by `_compute_moments`: the plates are broadcast and kept. -/
theorem npEinsum_plates [DecidableEq κ] [CommSemiring α]
    (ops : List (Arr α × List κ)) (out : List κ) (ℓ len : κ → Nat) (b : Nat) (K : List κ)
    (P : List Nat)
    (hlt : ∀ op ∈ ops, ∀ k ∈ op.2, ℓ k < b)
    (hinj : ∀ a a', (∃ op ∈ ops, a ∈ op.2) → (∃ op ∈ ops, a' ∈ op.2) → ℓ a = ℓ a' → a = a')
    (hdim : ∀ op ∈ ops, op.2.length ≤ op.1.shape.length)
    (hP : IsBroadcast (ops.map fun op => op.1.shape.take (op.1.shape.length - op.2.length)) P)
    (hfit : ∀ op ∈ ops, ∀ p ∈ op.2.zip (op.1.shape.drop (op.1.shape.length - op.2.length)),
      p.2 = 1 ∨ p.2 = len p.1)
    (hatt : ∀ k, (∃ op ∈ ops, k ∈ op.2) → len k = 1 ∨ ∃ op ∈ ops,
      (k, len k) ∈ op.2.zip (op.1.shape.drop (op.1.shape.length - op.2.length)))
    (hnd : out.Nodup) (hout : ∀ k ∈ out, ∃ op ∈ ops, k ∈ op.2)
    (hKnd : K.Nodup) (hK : ∀ k, k ∈ K ↔ (∃ op ∈ ops, k ∈ op.2) ∧ k ∉ out) :
    ∃ y, npEinsum (ops.map fun op =>
        (op.1, plateLabels b (op.1.shape.length - op.2.length) ++ op.2.map ℓ))
        (plateLabels b P.length ++ out.map ℓ) = .ok y ∧
      y.shape = P ++ out.map len ∧
      ∀ p e, ValidIn P p → (∀ k ∈ out, e k < len k) →
        y.at (joinC out.length (coord (out.map e)) p) = sumKeys (K.map fun k => (k, len k))
          (fun e => (ops.map fun op =>
            op.1.at (joinC op.2.length (coord (op.2.map e)) p)).prod) e := by
  classical
  set pc : Arr α × List κ → Nat := fun op => op.1.shape.length - op.2.length with hpc
  set ops' : List (Arr α × List (Nat ⊕ κ)) := ops.map fun op => (op.1, axisNames (pc op) op.2)
    with hops'
  set len' : Nat ⊕ κ → Nat := fun l => match l with
    | inl j => axisLen P j
    | inr k => len k with hlen'
  have hsplit : ∀ op ∈ ops, op.1.shape = op.1.shape.take (pc op) ++ op.1.shape.drop (pc op) :=
    fun op _ => (List.take_append_drop _ _).symm
  have htl : ∀ op ∈ ops, (op.1.shape.take (pc op)).length = pc op := by
    intro op hop
    simp [hpc]
  have hplen : ∀ op ∈ ops, pc op ≤ P.length := by
    intro op hop
    have := hP.rank_ge _ (List.mem_map_of_mem hop)
    rw [htl op hop] at this
    exact this
  have hPu : ∀ j, j < P.length → ∃ op ∈ ops, j < pc op := by
    intro j hj
    rcases hP.rank_le with h | ⟨s, hs, h⟩
    · omega
    · obtain ⟨op, hop, rfl⟩ := List.mem_map.1 hs
      have := htl op hop
      exact ⟨op, hop, by simp only [hpc] at this ⊢; omega⟩
  have hzip : ∀ op ∈ ops, ∀ l d, (l, d) ∈ (axisNames (pc op) op.2).zip op.1.shape ↔
      match l with
      | inl j => j < pc op ∧ d = axisLen (op.1.shape.take (pc op)) j
      | inr k => (k, d) ∈ op.2.zip (op.1.shape.drop (pc op)) := by
    intro op hop l d
    have := mem_zip_axisNames (P := op.1.shape.take (pc op)) (D := op.1.shape.drop (pc op))
      (ks := op.2) (l := l) (d := d)
    rw [htl op hop, ← hsplit op hop] at this
    exact this
  have hused_inl : ∀ j, (∃ op ∈ ops', inl j ∈ op.2) ↔ j < P.length := by
    intro j
    simp only [hops', List.mem_map]
    constructor
    · rintro ⟨_, ⟨op, hop, rfl⟩, h⟩
      have := mem_axisNames_inl.1 h
      have := hplen op hop
      omega
    · intro h
      obtain ⟨op, hop, h'⟩ := hPu j h
      exact ⟨_, ⟨op, hop, rfl⟩, mem_axisNames_inl.2 h'⟩
  have hused_inr : ∀ k, (∃ op ∈ ops', inr k ∈ op.2) ↔ ∃ op ∈ ops, k ∈ op.2 := by
    intro k
    simp only [hops', List.mem_map]
    constructor
    · rintro ⟨_, ⟨op, hop, rfl⟩, h⟩
      exact ⟨op, hop, mem_axisNames_inr.1 h⟩
    · rintro ⟨op, hop, h⟩
      exact ⟨_, ⟨op, hop, rfl⟩, mem_axisNames_inr.2 h⟩
  obtain ⟨y, hy, hys, hyg⟩ := npEinsum_keyed ops' (axisNames P.length out) (axisLabel b ℓ) len'
    (K.map inr)
    (by
      rintro (a | a) (c | c) ha hc he
      · simp only [axisLabel] at he; congr 1; omega
      · obtain ⟨op, hop, hk⟩ := (hused_inr c).1 hc
        have := hlt op hop c hk
        simp only [axisLabel] at he; omega
      · obtain ⟨op, hop, hk⟩ := (hused_inr a).1 ha
        have := hlt op hop a hk
        simp only [axisLabel] at he; omega
      · congr 1
        exact hinj a c ((hused_inr a).1 ha) ((hused_inr c).1 hc) he)
    (by
      intro op hop
      obtain ⟨o, ho, rfl⟩ := List.mem_map.1 hop
      have := hdim o ho
      simp only [length_axisNames, hpc]
      omega)
    (by
      intro op hop p hp
      obtain ⟨o, ho, rfl⟩ := List.mem_map.1 hop
      obtain ⟨l, d⟩ := p
      have := (hzip o ho l d).1 hp
      cases l with
      | inl j =>
        simp only at this
        rw [this.2]
        exact hP.fits j _ (List.mem_map_of_mem ho)
      | inr k => exact hfit o ho _ this)
    (by
      rintro (j | k) hu
      · rcases hP.attained j with h | ⟨s, hs, h⟩
        · exact .inl h
        · by_cases h1 : axisLen P j = 1
          · exact .inl h1
          · right
            obtain ⟨op, hop, rfl⟩ := List.mem_map.1 hs
            refine ⟨_, List.mem_map_of_mem hop, (hzip op hop _ _).2 ⟨?_, h.symm⟩⟩
            by_contra hc
            rw [← h] at h1
            exact h1 (axisLen_of_ge (by rw [htl op hop]; omega))
      · rcases hatt k ((hused_inr k).1 hu) with h | ⟨op, hop, h⟩
        · exact .inl h
        · exact .inr ⟨_, List.mem_map_of_mem hop, (hzip op hop _ _).2 h⟩)
    (nodup_axisNames hnd)
    (by
      rintro (j | k) h
      · exact (hused_inl j).2 (mem_axisNames_inl.1 h)
      · exact (hused_inr k).2 (hout k (mem_axisNames_inr.1 h)))
    (hKnd.map inr_injective)
    (by
      rintro (j | k)
      · simp only [List.mem_map, reduceCtorEq, and_false, exists_false, false_iff, hused_inl]
        rintro ⟨h, h'⟩
        exact h' (mem_axisNames_inl.2 h)
      · simp only [List.mem_map, inr.injEq, exists_eq_right, hused_inr, mem_axisNames_inr]
        exact hK k)
  refine ⟨y, ?_, ?_, ?_⟩
  · rw [← hy, hops', List.map_map, map_axisLabel]
    congr 1
    apply List.map_congr_left
    intro op _
    simp only [comp, map_axisLabel, hpc]
  · rw [hys]
    simp only [axisNames, plateNames, List.map_append, List.map_map]
    congr 1
    conv_rhs => rw [eq_map_axisLen P]
    rfl
  · intro p e hp he
    have hval : ValidIn y.shape (coord ((axisNames P.length out).map
        fun l => Sum.elim p e l)) := by
      rw [hys]
      apply validIn_coord_map
      rintro (j | k) h
      · exact hp j
      · exact he k (mem_axisNames_inr.1 h)
    have hl : y.shape.length = P.length + out.length := by rw [hys]; simp [length_axisNames]
    have h1 := at_axisNames (X := y) (ks := out) hl (fun l => Sum.elim p e l)
    simp only [Sum.elim_inr, Sum.elim_inl] at h1
    rw [← h1, y.at_of_valid hval, hyg _ (fun l => Sum.elim p e l) fun l hl => coord_map_idxOf _ _ hl]
    rw [List.map_map]
    have hgen : ∀ (L : List κ) (e : κ → Nat),
        sumKeys (L.map ((fun k => (k, len' k)) ∘ inr))
          (fun e => (ops'.map fun op => op.1.at (coord (op.2.map e))).prod) (fun l => Sum.elim p e l)
        = sumKeys (L.map fun k => (k, len k)) (fun e => (ops.map fun op =>
            op.1.at (joinC op.2.length (coord (op.2.map e)) p)).prod) e := by
      intro L
      induction L with
      | nil =>
        intro e
        simp only [List.map_nil, sumKeys, hops', List.map_map]
        congr 1
        apply List.map_congr_left
        intro op hop
        simp only [comp]
        have := hdim op hop
        rw [at_axisNames (by simp only [hpc]; omega)]
        rfl
      | cons k L ih =>
        intro e
        simp only [List.map_cons, comp, sumKeys]
        apply Finset.sum_congr rfl
        intro t _
        rw [← ih]
        congr 1
        funext l
        cases l with
        | inl j => simp
        | inr k' =>
          by_cases h : k' = k
          · subst h; simp
          · simp [update, h]
    exact hgen K e

end Verif
