import Verif.Model.PlateMaps
import Verif.Props.Shape
import Verif.Props.Gate

/-!
# C69: the plates of a constructed node fit its parents

The plates which the node reports towards a parent (`_plates_to_parent`) must be such that the plates of that parent
broadcast to them: messages are summed from the former to the latter.  If plates are not given, the node should have
the least such plates.
-/

namespace Verif
open Spec

/-- Towards each parent the node reports plates to which the plates of that parent broadcast. -/
def Spec.FitsParents (toParent : Nat → List Nat → Except PyErr (List Nat)) (plates : List Nat)
    (parents : List (List Nat)) : Prop :=
  ∀ i p, parents[i]? = some p → ∃ q, toParent i plates = .ok q ∧ BroadcastsTo p q

/-- Given plates are used as they are and otherwise the plates are the least which fit the parents. -/
structure Spec.PlatesFit (given : Option (List Nat)) (c : Constructed) : Prop where
  fits : FitsParents c.map.toParent c.plates c.parents
  asGiven : ∀ P, given = some P → c.plates = P
  least : given = none → ∀ P, FitsParents c.map.toParent P c.parents → BroadcastsTo c.plates P

/-! ## Helpers -/

theorem totalPlates_ok {kw : Option (List Nat)} {ps : List (List Nat)} {P : List Nat}
    (h : totalPlates kw ps = .ok P) :
    (∀ p ∈ ps, BroadcastsTo p P) ∧ (∀ Q, kw = some Q → P = Q) ∧
      (kw = none → ∀ Q, (∀ p ∈ ps, BroadcastsTo p Q) → BroadcastsTo P Q) := by
  cases kw with
  | none =>
    obtain ⟨h1, h2⟩ := C02_total_plates_inferred_least ps P h
    exact ⟨h1, by simp, fun _ => h2⟩
  | some Q =>
    by_cases hq : ∀ q ∈ ps, BroadcastsTo q Q
    · rw [(C02_total_plates_explicit Q ps).1 hq] at h
      cases h
      exact ⟨hq, by simp, by simp⟩
    · rw [(C02_total_plates_explicit Q ps).2 hq] at h
      cases h

/-- A parent fits the plates `P` with further axes `t` iff its leading axes fit `P` and the last ones fit `t`. -/
theorem broadcastsTo_append {p P t : List Nat} :
    BroadcastsTo p (P ++ t) ↔ BroadcastsTo (getPlates t.length p) P ∧
      ∀ j, j < t.length → axisLen p j = 1 ∨ axisLen p j = axisLen t j := by
  constructor
  · rintro ⟨h1, h2⟩
    refine ⟨⟨?_, fun j => ?_⟩, fun j hj => ?_⟩
    · rw [length_getPlates]; simp at h1; omega
    · have := h2 (j + t.length)
      rw [axisLen_append, if_neg (by omega), Nat.add_sub_cancel] at this
      rwa [axisLen_getPlates]
    · have := h2 j
      rwa [axisLen_append, if_pos hj] at this
  · rintro ⟨⟨h1, h2⟩, h3⟩
    refine ⟨?_, fun j => ?_⟩
    · rw [length_getPlates] at h1; simp; omega
    · rw [axisLen_append]
      split_ifs with hj
      · exact h3 j hj
      · have := h2 (j - t.length)
        rwa [axisLen_getPlates, Nat.sub_add_cancel (by omega)] at this

theorem axisLen_popPlate {f : List Nat} {g : Nat} (hg : g < f.length) (j : Nat) :
    axisLen (f.eraseIdx (f.length - (g + 1))) j = if j < g then axisLen f j else axisLen f (j + 1) := by
  have hl : (f.drop (f.length - g)).length = g := by simp; omega
  have hd : f.drop (f.length - (g + 1)) = f[f.length - (g + 1)] :: f.drop (f.length - g) := by
    rw [List.drop_eq_getElem_cons (by omega), show f.length - (g + 1) + 1 = f.length - g by omega]
  have he : f.eraseIdx (f.length - (g + 1)) = f.take (f.length - (g + 1)) ++ f.drop (f.length - g) := by
    rw [List.eraseIdx_eq_take_drop_succ, show f.length - (g + 1) + 1 = f.length - g by omega]
  have hf : ∀ k, axisLen f k = if k < g + 1 then
      axisLen (f[f.length - (g + 1)] :: f.drop (f.length - g)) k
      else axisLen (f.take (f.length - (g + 1))) (k - (g + 1)) := by
    intro k
    conv_lhs => rw [← List.take_append_drop (f.length - (g + 1)) f, hd]
    rw [axisLen_append, List.length_cons, hl]
  rw [he, axisLen_append, hl]
  split_ifs with h
  · rw [hf, if_pos (by omega), show f[f.length - (g + 1)] :: f.drop (f.length - g)
      = [f[f.length - (g + 1)]] ++ f.drop (f.length - g) from rfl, axisLen_append, hl, if_pos h]
  · rw [hf, if_neg (by omega)]
    congr 1
    omega

theorem axisLen_platesFromX {f : List Nat} {g : Nat} (j : Nat) :
    axisLen (gatePlatesFromX g f) j = if j < g then axisLen f j else if f.length ≤ g then 1 else axisLen f (j + 1) := by
  unfold gatePlatesFromX
  by_cases h : f.length ≥ g + 1
  · rw [if_pos h, axisLen_popPlate (by omega)]
    simp [show ¬ f.length ≤ g by omega]
  · rw [if_neg h, if_pos (by omega : f.length ≤ g)]
    split_ifs with hj
    · rfl
    · exact axisLen_of_ge (by omega)

theorem length_platesFromX {f : List Nat} {g : Nat} :
    (gatePlatesFromX g f).length = if f.length ≤ g then f.length else f.length - 1 := by
  unfold gatePlatesFromX
  by_cases h : f.length ≥ g + 1
  · rw [if_pos h, List.length_eraseIdx, if_pos (by omega), if_neg (by omega)]
  · rw [if_neg h, if_pos (by omega)]

/-- Popping the cluster plate on the one side is inserting it on the other. -/
theorem broadcastsTo_insert {f P : List Nat} {g K : Nat} (hg : g ≤ P.length) :
    BroadcastsTo f (gatePlatesToX g K P) ↔
      BroadcastsTo (gatePlatesFromX g f) P ∧ (axisLen f g = 1 ∨ axisLen f g = K) := by
  rw [(C15_plates hg).1]
  unfold BroadcastsTo
  rw [length_insAxis, length_platesFromX]
  constructor
  · rintro ⟨h1, h2⟩
    refine ⟨⟨by split_ifs <;> omega, fun j => ?_⟩, ?_⟩
    · rw [axisLen_platesFromX]
      split_ifs with h3 h4
      · have := h2 j
        rwa [axisLen_insAxis hg, if_pos h3] at this
      · exact .inl rfl
      · have := h2 (j + 1)
        rwa [axisLen_insAxis hg, if_neg (by omega), if_neg (by omega), Nat.add_sub_cancel] at this
    · have := h2 g
      rwa [axisLen_insAxis hg, if_neg (by omega), if_pos rfl] at this
  · rintro ⟨⟨h1, h2⟩, h3⟩
    refine ⟨by split_ifs at h1 <;> omega, fun j => ?_⟩
    rw [axisLen_insAxis hg]
    split_ifs with h4 h5
    · have := h2 j
      rwa [axisLen_platesFromX, if_pos h4] at this
    · rw [h5]; exact h3
    · by_cases h6 : f.length ≤ g
      · exact .inl (axisLen_of_ge (by omega))
      · have := h2 (j - 1)
        rwa [axisLen_platesFromX, if_neg (by omega), if_neg h6, Nat.sub_add_cancel (by omega)] at this

theorem length_platesToX (g K : Nat) (P : List Nat) : (gatePlatesToX g K P).length = P.length + 1 := by
  unfold gatePlatesToX pyInsert
  simp
  omega

theorem broadcastsTo_trans {a b c : List Nat} (h1 : BroadcastsTo a b) (h2 : BroadcastsTo b c) : BroadcastsTo a c := by
  refine ⟨h1.1.trans h2.1, fun k => ?_⟩
  have := h1.2 k
  have := h2.2 k
  omega

/-- What the constructors guarantee: the plates from each parent fit the node, and conversely whatever fits the
plates from a parent gives plates to the parent which it fits. -/
structure Sound (c : Constructed) : Prop where
  fits : ∀ i p, c.parents[i]? = some p → ∃ f, c.map.fromParent i p = .ok f ∧ BroadcastsTo f c.plates
  mono : ∀ i p f P, c.parents[i]? = some p → c.map.fromParent i p = .ok f → c.plates.length ≤ P.length →
    BroadcastsTo f P → ∃ q, c.map.toParent i P = .ok q ∧ BroadcastsTo p q

def Least (c : Constructed) : Prop := ∀ P, FitsParents c.map.toParent P c.parents → BroadcastsTo c.plates P

theorem Sound.fitsParents {c : Constructed} (h : Sound c) : FitsParents c.map.toParent c.plates c.parents := by
  intro i p hp
  obtain ⟨f, hf, hb⟩ := h.fits i p hp
  exact h.mono i p f _ hp hf le_rfl hb

theorem buildStochastic_ok {kw : Option (List Nat)} {c c' : Constructed} (h : buildStochastic kw c = .ok c') :
    c' = c ∧ ∃ fs, platesFromParents c.map c.parents = .ok fs ∧ ∃ P, totalPlates kw fs = .ok P := by
  unfold buildStochastic at h
  cases h1 : platesFromParents c.map c.parents with
  | error e => rw [h1] at h; cases h
  | ok fs =>
    rw [h1] at h
    cases h2 : totalPlates kw fs with
    | error e => simp only [bind, Except.bind, h2] at h; cases h
    | ok P =>
      simp only [bind, Except.bind, h2, pure, Except.pure] at h
      cases h
      exact ⟨rfl, fs, rfl, P, h2⟩

theorem platesFromParents_ok {map : ParentMap} {parents fs : List (List Nat)}
    (h : platesFromParents map parents = .ok fs) :
    (∀ i p, parents[i]? = some p → ∃ f ∈ fs, map.fromParent i p = .ok f) ∧
      ∀ f ∈ fs, ∃ i p, parents[i]? = some p ∧ map.fromParent i p = .ok f := by
  unfold platesFromParents at h
  obtain ⟨h1, h2⟩ := (mapM_ok_iff _ _ _).1 h
  rw [List.length_zipIdx] at h1
  constructor
  · intro i p hp
    obtain ⟨hi, rfl⟩ := List.getElem?_eq_some_iff.1 hp
    refine ⟨fs[i]'(by omega), List.getElem_mem _, ?_⟩
    have := h2 i (by simpa using hi) (by omega)
    simpa using this
  · intro f hf
    obtain ⟨i, hi, rfl⟩ := List.mem_iff_getElem.1 hf
    refine ⟨i, parents[i]'(by omega), by simp [List.getElem?_eq_getElem (show i < parents.length by omega)], ?_⟩
    have := h2 i (by simp; omega) hi
    simpa using this

/-- Plates made by `_total_plates` from the plates of all parents, with maps which are inverse to each other. -/
theorem sound_of_total {kw : Option (List Nat)} {c : Constructed} {fs : List (List Nat)}
    (hfs : platesFromParents c.map c.parents = .ok fs) (h : totalPlates kw fs = .ok c.plates)
    (hm : ∀ i p f P, c.parents[i]? = some p → c.map.fromParent i p = .ok f → c.plates.length ≤ P.length →
      BroadcastsTo f P → ∃ q, c.map.toParent i P = .ok q ∧ BroadcastsTo p q)
    (hl : ∀ i p f P q, c.parents[i]? = some p → c.map.fromParent i p = .ok f → c.map.toParent i P = .ok q →
      BroadcastsTo p q → BroadcastsTo f P) :
    Sound c ∧ (kw = none → Least c) ∧ ∀ Q, kw = some Q → c.plates = Q := by
  obtain ⟨h1, h2, h3⟩ := totalPlates_ok h
  obtain ⟨h4, h5⟩ := platesFromParents_ok hfs
  refine ⟨⟨fun i p hp => ?_, hm⟩, fun hk P hP => h3 hk P fun f hf => ?_, h2⟩
  · obtain ⟨f, hf, he⟩ := h4 i p hp
    exact ⟨f, he, h1 f hf⟩
  · obtain ⟨i, p, hp, he⟩ := h5 f hf
    obtain ⟨q, hq, hb⟩ := hP i p hp
    exact hl i p f P q hp he hq hb

theorem platesFit_of_sound {kw : Option (List Nat)} {c : Constructed}
    (h : Sound c ∧ (kw = none → Least c) ∧ ∀ Q, kw = some Q → c.plates = Q) : PlatesFit kw c :=
  ⟨h.1.fitsParents, h.2.2, h.2.1⟩

theorem ebind_ok {α β : Type _} {x : Except PyErr α} {f : α → Except PyErr β} {b : β} :
    (x >>= f) = .ok b ↔ ∃ a, x = .ok a ∧ f a = .ok b := by
  cases x <;> simp [bind, Except.bind]

theorem raiseIf_ok {q : Prop} [Decidable q] {e : PyErr} {u : Unit} : raiseIf q e = .ok u ↔ ¬ q := by
  unfold raiseIf
  split_ifs with h <;> simp [h]

theorem timePlate_eq (p : List Nat) (k : Nat) : timePlate p (k + 1) = .ok (axisLen p k) := by
  unfold timePlate
  split_ifs with h
  · exact negIdx_eq (by omega)
  · rw [axisLen_of_ge (by omega)]

theorem negIdx_ok {p : List Nat} {k x : Nat} (h : negIdx p (k + 1) = .ok x) : k < p.length ∧ axisLen p k = x := by
  by_cases hk : k < p.length
  · rw [negIdx_eq hk] at h
    cases h
    exact ⟨hk, rfl⟩
  · unfold negIdx at h
    rw [if_neg (by omega), if_neg (by omega)] at h
    cases h

theorem checkTimePlates_ok {p : List Nat} {M D : Nat} {u : Unit} (h : checkTimePlates p M D = .ok u) :
    axisLen p 0 = D ∧ (axisLen p 1 = 1 ∨ axisLen p 1 = M - 1) := by
  unfold checkTimePlates at h
  obtain ⟨-, -, h⟩ := ebind_ok.1 h
  obtain ⟨x, hx, h⟩ := ebind_ok.1 h
  obtain ⟨_, h1, h⟩ := ebind_ok.1 h
  obtain ⟨y, hy, h⟩ := ebind_ok.1 h
  rw [timePlate_eq p 1] at hy
  cases hy
  rw [raiseIf_ok] at h1 h
  have := (negIdx_ok (k := 0) hx).2
  exact ⟨by omega, by omega⟩

theorem axisLen_pair (a b j : Nat) : axisLen [a, b] j = if j = 0 then b else if j = 1 then a else 1 := by
  rcases j with _ | _ | j <;> simp [axisLen]

theorem broadcastsTo_pair {p P : List Nat} {a b : Nat} :
    BroadcastsTo p (P ++ [a, b]) ↔ BroadcastsTo (getPlates 2 p) P ∧ (axisLen p 0 = 1 ∨ axisLen p 0 = b) ∧
      (axisLen p 1 = 1 ∨ axisLen p 1 = a) := by
  rw [broadcastsTo_append]
  refine and_congr Iff.rfl ⟨fun h => ⟨by simpa [axisLen_pair] using h 0 (by simp),
    by simpa [axisLen_pair] using h 1 (by simp)⟩, fun h j hj => ?_⟩
  rw [axisLen_pair]
  have : j < 2 := hj
  rcases j with _ | _ | j
  · simpa using h.1
  · simpa using h.2
  · omega

theorem broadcastsTo_one {p P : List Nat} {a : Nat} :
    BroadcastsTo p (P ++ [a]) ↔ BroadcastsTo (getPlates 1 p) P ∧ (axisLen p 0 = 1 ∨ axisLen p 0 = a) := by
  rw [broadcastsTo_append]
  refine and_congr Iff.rfl ⟨fun h => by simpa [axisLen_single] using h 0 (by simp), fun h j hj => ?_⟩
  have : j = 0 := by simpa using hj
  subst this
  simpa [axisLen_single] using h

theorem getPlates_zero (p : List Nat) : getPlates 0 p = p := by simp [getPlates]

/-! ## The default maps -/

theorem sound_id {kw : Option (List Nat)} {parents : List (List Nat)} {c : Constructed}
    (h : idConstructor kw parents = .ok c) :
    Sound c ∧ (kw = none → Least c) ∧ ∀ Q, kw = some Q → c.plates = Q := by
  unfold idConstructor at h
  obtain ⟨fs, hfs, h⟩ := ebind_ok.1 h
  obtain ⟨P, hP, h⟩ := ebind_ok.1 h
  cases h
  refine sound_of_total hfs hP ?_ ?_
  · intro i p f P hp hf _ hb
    cases hf
    exact ⟨P, rfl, hb⟩
  · intro i p f P q hp hf hq hb
    cases hf
    cases hq
    exact hb

/-- **C69** Nodes with the default plate maps. -/
theorem C69_default {kw : Option (List Nat)} {parents : List (List Nat)} {c c' : Constructed}
    (h : idConstructor kw parents = .ok c) (h' : buildStochastic kw c = .ok c') : PlatesFit kw c' := by
  obtain ⟨rfl, -⟩ := buildStochastic_ok h'
  exact platesFit_of_sound (sound_id h)

/-! ## `GaussianARD` -/

theorem sound_ard {kw : Option (List Nat)} {mua : List Nat} {ndim : Option Nat} {sh : Option (List Nat)}
    {c : Constructed} (h : ardConstructor kw mua ndim sh = .ok c) {s : List Nat}
    (hs : ardShape mua ndim sh = .ok s) (hl : ∀ j, j < s.length → axisLen mua j = 1 ∨ axisLen mua j = axisLen s j) :
    Sound c ∧ (kw = none → Least c) ∧ ∀ Q, kw = some Q → c.plates = Q := by
  have hfrom : (ardMap s).fromParent 0 mua = .ok (getPlates s.length mua) := by
    unfold ardMap
    by_cases h0 : s.length = 0
    · simp [h0, getPlates_zero]
    · simp [h0]
  unfold ardConstructor at h
  rw [hs] at h
  obtain ⟨s', hs', h⟩ := ebind_ok.1 h
  cases hs'
  obtain ⟨f, hf, h⟩ := ebind_ok.1 h
  rw [hfrom] at hf
  cases hf
  obtain ⟨P, hP, h⟩ := ebind_ok.1 h
  cases h
  have hfs : platesFromParents (ardMap s) [mua] = .ok [getPlates s.length mua] := by
    unfold platesFromParents
    simp [hfrom, bind, Except.bind, pure, Except.pure]
  refine sound_of_total hfs hP ?_ ?_
  · intro i p f P hp hf _ hb
    obtain ⟨rfl, rfl⟩ : i = 0 ∧ p = mua := by
      rcases i with _ | i <;> simp at hp
      exact ⟨rfl, hp.symm⟩
    rw [hfrom] at hf
    cases hf
    exact ⟨P ++ s, by simp [ardMap], broadcastsTo_append.2 ⟨hb, hl⟩⟩
  · intro i p f P q hp hf hq hb
    obtain ⟨rfl, rfl⟩ : i = 0 ∧ p = mua := by
      rcases i with _ | i <;> simp at hp
      exact ⟨rfl, hp.symm⟩
    rw [hfrom] at hf
    cases hf
    have : q = P ++ s := by
      simp [ardMap] at hq
      exact hq.symm
    subst this
    exact (broadcastsTo_append.1 hb).1

theorem ardShape_infer {mua s : List Nat} {ndim : Option Nat} (hs : ardShape mua ndim none = .ok s) (j : Nat)
    (hj : j < s.length) : axisLen mua j = axisLen s j := by
  cases ndim with
  | none => simp [ardShape] at hs; subst hs; simp at hj
  | some n =>
    unfold ardShape at hs
    by_cases h0 : n = 0
    · simp [h0] at hs; subst hs; simp at hj
    · by_cases h1 : n > mua.length
      · simp [h0, h1] at hs
      · simp [h0, h1] at hs
        conv_lhs => rw [← List.take_append_drop (mua.length - n) mua, hs]
        rw [axisLen_append, if_pos hj]

/-- **C69** `GaussianARD` with the shape inferred from the parents. -/
theorem C69_gaussian_ard {kw : Option (List Nat)} {muAlpha : List Nat} {ndim : Option Nat} {c c' : Constructed}
    (h : ardConstructor kw muAlpha ndim none = .ok c) (h' : buildStochastic kw c = .ok c') : PlatesFit kw c' := by
  obtain ⟨rfl, -⟩ := buildStochastic_ok h'
  cases hs : ardShape muAlpha ndim none with
  | error e => unfold ardConstructor at h; rw [hs] at h; cases h
  | ok s => exact platesFit_of_sound (sound_ard h hs fun j hj => .inr (ardShape_infer hs j hj))

/-- **C69** `GaussianARD` with a given shape: the plates fit the parents iff the last axes of the parents broadcast to
the shape.  The constructor does not check this. -/
theorem C69_gaussian_ard_shape_iff {kw : Option (List Nat)} {muAlpha s : List Nat} {c c' : Constructed}
    (h : ardConstructor kw muAlpha none (some s) = .ok c) (h' : buildStochastic kw c = .ok c') :
    PlatesFit kw c' ↔ ∀ j, j < s.length → axisLen muAlpha j = 1 ∨ axisLen muAlpha j = axisLen s j := by
  obtain ⟨rfl, -⟩ := buildStochastic_ok h'
  constructor
  · intro hf j hj
    unfold ardConstructor at h
    obtain ⟨s', hs', h⟩ := ebind_ok.1 h
    cases hs'
    obtain ⟨f, -, h⟩ := ebind_ok.1 h
    obtain ⟨P, -, h⟩ := ebind_ok.1 h
    cases h
    obtain ⟨q, hq, hb⟩ := hf.fits 0 muAlpha rfl
    simp [ardMap] at hq
    rw [← hq] at hb
    exact (broadcastsTo_append.1 hb).2 j hj
  · intro hl
    exact platesFit_of_sound (sound_ard h rfl hl)

/-! ## Markov chains -/

theorem gmc_parts {kw : Option (List Nat)} {mu A : List Nat} {inputs : Option (List Nat)} {D : Nat} {n : Option Nat}
    {c : Constructed} (h : gmcConstructor kw mu A inputs D n = .ok c) :
    ∃ nI M P, chainLength n nI (axisLen A 1) = .ok M ∧ (inputs = none → nI = 1) ∧
      (∀ s, inputs = some s → nI = axisLen s 0) ∧ axisLen A 0 = D ∧ (axisLen A 1 = 1 ∨ axisLen A 1 = M - 1) ∧
      totalPlates kw [mu, getPlates 2 A] = .ok P ∧ c = ⟨[mu, A] ++ inputs.toList, P, gmcMap M D⟩ := by
  unfold gmcConstructor at h
  obtain ⟨nI, hnI, h⟩ := ebind_ok.1 h
  obtain ⟨nA, hnA, h⟩ := ebind_ok.1 h
  rw [timePlate_eq A 1] at hnA
  cases hnA
  obtain ⟨M, hM, h⟩ := ebind_ok.1 h
  obtain ⟨_, hA, h⟩ := ebind_ok.1 h
  obtain ⟨f0, hf0, h⟩ := ebind_ok.1 h
  obtain ⟨f1, hf1, h⟩ := ebind_ok.1 h
  cases hf0
  cases hf1
  obtain ⟨P, hP, h⟩ := ebind_ok.1 h
  cases h
  refine ⟨nI, M, P, hM, ?_, ?_, (checkTimePlates_ok hA).1, (checkTimePlates_ok hA).2, hP, rfl⟩
  · rintro rfl
    cases hnI
    rfl
  · rintro s rfl
    change timePlate s (0 + 1) = _ at hnI
    rw [timePlate_eq s 0] at hnI
    cases hnI
    rfl

theorem getElem?_pair {α : Type _} {a b p : α} {i : Nat} (h : [a, b][i]? = some p) :
    (i = 0 ∧ p = a) ∨ (i = 1 ∧ p = b) := by
  rcases i with _ | _ | i <;> simp at h
  · exact .inl ⟨rfl, h.symm⟩
  · exact .inr ⟨rfl, h.symm⟩

theorem sound_gmc {kw : Option (List Nat)} {mu A : List Nat} {D : Nat} {n : Option Nat} {c : Constructed}
    (h : gmcConstructor kw mu A none D n = .ok c) :
    Sound c ∧ (kw = none → Least c) ∧ ∀ Q, kw = some Q → c.plates = Q := by
  obtain ⟨nI, M, P, -, -, -, hA0, hA1, hP, rfl⟩ := gmc_parts h
  refine sound_of_total (fs := [mu, getPlates 2 A]) (by simp [platesFromParents, gmcMap, bind, Except.bind, pure,
    Except.pure]) hP ?_ ?_
  · intro i p f P hp hf _ hb
    rcases getElem?_pair hp with ⟨rfl, rfl⟩ | ⟨rfl, rfl⟩ <;> cases hf
    · exact ⟨_, rfl, hb⟩
    · exact ⟨_, rfl, broadcastsTo_pair.2 ⟨hb, .inr hA0, hA1⟩⟩
  · intro i p f P q hp hf hq hb
    rcases getElem?_pair hp with ⟨rfl, rfl⟩ | ⟨rfl, rfl⟩ <;> cases hf <;> cases hq
    · exact hb
    · exact (broadcastsTo_pair.1 hb).1

/-- **C69** `GaussianMarkovChain` without input signals. -/
theorem C69_markov_chain {kw : Option (List Nat)} {mu A : List Nat} {D : Nat} {n : Option Nat} {c c' : Constructed}
    (h : gmcConstructor kw mu A none D n = .ok c) (h' : buildStochastic kw c = .ok c') : PlatesFit kw c' := by
  obtain ⟨rfl, -⟩ := buildStochastic_ok h'
  exact platesFit_of_sound (sound_gmc h)

/-- The time axis of the inputs is checked, except for an axis of length zero. -/
theorem gmc_inputs_time {nI nA M : Nat} {n : Option Nat} (h : chainLength n nI nA = .ok M) (h0 : nI ≠ 0)
    (hA : nA ≠ 0) : nI = 1 ∨ nI = M - 1 := by
  unfold chainLength at h
  split_ifs at h with h1
  cases n with
  | none =>
    simp only at h
    split_ifs at h with h2
    cases h
    omega
  | some n =>
    simp only at h
    split_ifs at h with h2
    cases h
    omega

/-- **C69** `GaussianMarkovChain` with input signals: the parents fit iff the plates of the inputs happen to broadcast to
the plates made from the two other parents. -/
theorem C69_markov_chain_inputs_iff {kw : Option (List Nat)} {mu A inputs : List Nat} {D : Nat} {n : Option Nat}
    {c c' : Constructed} (h : gmcConstructor kw mu A (some inputs) D n = .ok c)
    (h' : buildStochastic kw c = .ok c') (h0 : axisLen inputs 0 ≠ 0) (hA : axisLen A 1 ≠ 0) :
    FitsParents c'.map.toParent c'.plates c'.parents ↔ BroadcastsTo (getPlates 1 inputs) c'.plates := by
  obtain ⟨rfl, -⟩ := buildStochastic_ok h'
  obtain ⟨nI, M, P, hM, -, hI, hA0, hA1, hP, rfl⟩ := gmc_parts h
  have hI' := hI inputs rfl
  subst hI'
  have ht := gmc_inputs_time hM h0 hA
  obtain ⟨h1, -, -⟩ := totalPlates_ok hP
  constructor
  · intro hf
    obtain ⟨q, hq, hb⟩ := hf 2 inputs rfl
    cases hq
    exact (broadcastsTo_one.1 hb).1
  · intro hb i p hp
    rcases i with _ | _ | _ | i <;> simp at hp
    · subst hp
      exact ⟨_, rfl, h1 _ (by simp)⟩
    · subst hp
      exact ⟨_, rfl, broadcastsTo_pair.2 ⟨h1 _ (by simp), .inr hA0, hA1⟩⟩
    · subst hp
      exact ⟨_, rfl, broadcastsTo_one.2 ⟨hb, ht⟩⟩

/-- **C69** With given plates the inputs are checked by `Node.__init__`. -/
theorem C69_markov_chain_inputs_given {P mu A inputs : List Nat} {D : Nat} {n : Option Nat}
    {c c' : Constructed} (h : gmcConstructor (some P) mu A (some inputs) D n = .ok c)
    (h' : buildStochastic (some P) c = .ok c') (h0 : axisLen inputs 0 ≠ 0) (hA : axisLen A 1 ≠ 0) :
    PlatesFit (some P) c' := by
  have hiff := C69_markov_chain_inputs_iff h h' h0 hA
  obtain ⟨rfl, fs, hfs, Q, hQ⟩ := buildStochastic_ok h'
  obtain ⟨nI, M, P', hM, -, -, -, -, hP, hc⟩ := gmc_parts h
  obtain ⟨h1, h2, -⟩ := totalPlates_ok hQ
  obtain ⟨h3, h4, -⟩ := totalPlates_ok hP
  obtain ⟨f, hf, he⟩ := (platesFromParents_ok hfs).1 2 inputs (by rw [hc]; rfl)
  rw [hc] at he
  cases he
  refine ⟨hiff.2 ?_, ?_, by simp⟩
  · have := h1 _ hf
    rw [h2 P rfl, ← h4 P rfl] at this
    rw [hc]
    exact this
  · rintro Q hQ
    rw [hc]
    exact h4 Q hQ

theorem getElem?_five {α : Type _} {a b c d e p : α} {i : Nat} (h : [a, b, c, d, e][i]? = some p) :
    (i = 0 ∧ p = a) ∨ (i = 1 ∧ p = b) ∨ (i = 2 ∧ p = c) ∨ (i = 3 ∧ p = d) ∨ (i = 4 ∧ p = e) := by
  rcases i with _ | _ | _ | _ | _ | i <;> simp at h <;> subst h <;> simp

theorem varying_parts {kw : Option (List Nat)} {mu La B S v : List Nat} {D : Nat} {n : Option Nat}
    {c : Constructed} (h : varyingConstructor kw mu La B S v D n = .ok c) :
    ∃ M P, axisLen B 0 = D ∧ (axisLen S 0 = 1 ∨ axisLen S 0 = M - 1) ∧ axisLen v 0 = D ∧
      (axisLen v 1 = 1 ∨ axisLen v 1 = M - 1) ∧
      totalPlates kw [mu, La, getPlates 1 B, getPlates 1 S, getPlates 2 v] = .ok P ∧
      c = ⟨[mu, La, B, S, v], P, varyingMap M D⟩ := by
  unfold varyingConstructor at h
  obtain ⟨nS, hnS, h⟩ := ebind_ok.1 h
  rw [timePlate_eq S 0] at hnS
  cases hnS
  obtain ⟨nv, hnv, h⟩ := ebind_ok.1 h
  obtain ⟨M, hM, h⟩ := ebind_ok.1 h
  obtain ⟨-, -, h⟩ := ebind_ok.1 h
  obtain ⟨x, hx, h⟩ := ebind_ok.1 h
  obtain ⟨_, h1, h⟩ := ebind_ok.1 h
  obtain ⟨_, h2, h⟩ := ebind_ok.1 h
  obtain ⟨_, hv, h⟩ := ebind_ok.1 h
  obtain ⟨f0, hf0, h⟩ := ebind_ok.1 h
  obtain ⟨f1, hf1, h⟩ := ebind_ok.1 h
  obtain ⟨f2, hf2, h⟩ := ebind_ok.1 h
  obtain ⟨f3, hf3, h⟩ := ebind_ok.1 h
  obtain ⟨f4, hf4, h⟩ := ebind_ok.1 h
  cases hf0
  cases hf1
  cases hf2
  cases hf3
  cases hf4
  obtain ⟨P, hP, h⟩ := ebind_ok.1 h
  cases h
  rw [raiseIf_ok] at h1 h2
  have := (negIdx_ok (k := 0) hx).2
  exact ⟨M, P, by omega, by omega, (checkTimePlates_ok hv).1, (checkTimePlates_ok hv).2, hP, rfl⟩

/-- **C69** `VaryingGaussianMarkovChain`. -/
theorem C69_varying_chain {kw : Option (List Nat)} {mu Lambda B S v : List Nat} {D : Nat} {n : Option Nat}
    {c c' : Constructed} (h : varyingConstructor kw mu Lambda B S v D n = .ok c)
    (h' : buildStochastic kw c = .ok c') : PlatesFit kw c' := by
  obtain ⟨rfl, -⟩ := buildStochastic_ok h'
  obtain ⟨M, P, hB, hS, hv0, hv1, hP, rfl⟩ := varying_parts h
  refine platesFit_of_sound (sound_of_total (fs := [mu, Lambda, getPlates 1 B, getPlates 1 S, getPlates 2 v])
    (by simp [platesFromParents, varyingMap, bind, Except.bind, pure, Except.pure]) hP ?_ ?_)
  · intro i p f P hp hf _ hb
    rcases getElem?_five hp with ⟨rfl, rfl⟩ | ⟨rfl, rfl⟩ | ⟨rfl, rfl⟩ | ⟨rfl, rfl⟩ | ⟨rfl, rfl⟩ <;> cases hf
    · exact ⟨_, rfl, hb⟩
    · exact ⟨_, rfl, hb⟩
    · exact ⟨_, rfl, broadcastsTo_one.2 ⟨hb, .inr hB⟩⟩
    · exact ⟨_, rfl, broadcastsTo_one.2 ⟨hb, hS⟩⟩
    · exact ⟨_, rfl, broadcastsTo_pair.2 ⟨hb, .inr hv0, hv1⟩⟩
  · intro i p f P q hp hf hq hb
    rcases getElem?_five hp with ⟨rfl, rfl⟩ | ⟨rfl, rfl⟩ | ⟨rfl, rfl⟩ | ⟨rfl, rfl⟩ | ⟨rfl, rfl⟩ <;>
      cases hf <;> cases hq
    · exact hb
    · exact hb
    · exact (broadcastsTo_one.1 hb).1
    · exact (broadcastsTo_one.1 hb).1
    · exact (broadcastsTo_pair.1 hb).1

theorem axisLen_of_drop {B t : List Nat} (h : B.drop (B.length - t.length) = t) (j : Nat) (hj : j < t.length) :
    axisLen B j = axisLen t j := by
  conv_lhs => rw [← List.take_append_drop (B.length - t.length) B, h]
  rw [axisLen_append, if_pos hj]

theorem switching_parts {kw : Option (List Nat)} {mu La B Z v : List Nat} {D K : Nat} {n : Option Nat}
    {c : Constructed} (h : switchingConstructor kw mu La B Z v D K n = .ok c) :
    ∃ M P, axisLen B 0 = D ∧ axisLen B 1 = K ∧ axisLen Z 0 = M - 1 ∧ axisLen v 0 = D ∧
      (axisLen v 1 = 1 ∨ axisLen v 1 = M - 1) ∧
      totalPlates kw [mu, La, getPlates 2 B, getPlates 1 Z, getPlates 2 v] = .ok P ∧
      c = ⟨[mu, La, B, Z, v], P, switchingMap M D K⟩ := by
  unfold switchingConstructor at h
  obtain ⟨-, -, h⟩ := ebind_ok.1 h
  obtain ⟨-, -, h⟩ := ebind_ok.1 h
  obtain ⟨nZ, hnZ, h⟩ := ebind_ok.1 h
  obtain ⟨nv, hnv, h⟩ := ebind_ok.1 h
  obtain ⟨M, hM, h⟩ := ebind_ok.1 h
  obtain ⟨_, h1, h⟩ := ebind_ok.1 h
  obtain ⟨_, h2, h⟩ := ebind_ok.1 h
  obtain ⟨_, hv, h⟩ := ebind_ok.1 h
  obtain ⟨f0, hf0, h⟩ := ebind_ok.1 h
  obtain ⟨f1, hf1, h⟩ := ebind_ok.1 h
  obtain ⟨f2, hf2, h⟩ := ebind_ok.1 h
  obtain ⟨f3, hf3, h⟩ := ebind_ok.1 h
  obtain ⟨f4, hf4, h⟩ := ebind_ok.1 h
  cases hf0
  cases hf1
  cases hf2
  cases hf3
  cases hf4
  obtain ⟨P, hP, h⟩ := ebind_ok.1 h
  cases h
  rw [raiseIf_ok] at h1 h2
  have hZ := (negIdx_ok (k := 0) hnZ).2
  have hB : B.drop (B.length - [K, D].length) = [K, D] := by
    by_contra hc
    exact h1 (.inr hc)
  refine ⟨M, P, ?_, ?_, by omega, (checkTimePlates_ok hv).1, (checkTimePlates_ok hv).2, hP, rfl⟩
  · simpa [axisLen_pair] using axisLen_of_drop hB 0 (by simp)
  · simpa [axisLen_pair] using axisLen_of_drop hB 1 (by simp)

/-- **C69** `SwitchingGaussianMarkovChain`. -/
theorem C69_switching_chain {kw : Option (List Nat)} {mu Lambda B Z v : List Nat} {D K : Nat} {n : Option Nat}
    {c c' : Constructed} (h : switchingConstructor kw mu Lambda B Z v D K n = .ok c)
    (h' : buildStochastic kw c = .ok c') : PlatesFit kw c' := by
  obtain ⟨rfl, -⟩ := buildStochastic_ok h'
  obtain ⟨M, P, hB0, hB1, hZ, hv0, hv1, hP, rfl⟩ := switching_parts h
  refine platesFit_of_sound (sound_of_total (fs := [mu, Lambda, getPlates 2 B, getPlates 1 Z, getPlates 2 v])
    (by simp [platesFromParents, switchingMap, bind, Except.bind, pure, Except.pure]) hP ?_ ?_)
  · intro i p f P hp hf _ hb
    rcases getElem?_five hp with ⟨rfl, rfl⟩ | ⟨rfl, rfl⟩ | ⟨rfl, rfl⟩ | ⟨rfl, rfl⟩ | ⟨rfl, rfl⟩ <;> cases hf
    · exact ⟨_, rfl, hb⟩
    · exact ⟨_, rfl, hb⟩
    · exact ⟨_, rfl, broadcastsTo_pair.2 ⟨hb, .inr hB0, .inr hB1⟩⟩
    · exact ⟨_, rfl, broadcastsTo_one.2 ⟨hb, .inr hZ⟩⟩
    · exact ⟨_, rfl, broadcastsTo_pair.2 ⟨hb, .inr hv0, hv1⟩⟩
  · intro i p f P q hp hf hq hb
    rcases getElem?_five hp with ⟨rfl, rfl⟩ | ⟨rfl, rfl⟩ | ⟨rfl, rfl⟩ | ⟨rfl, rfl⟩ | ⟨rfl, rfl⟩ <;>
      cases hf <;> cases hq
    · exact hb
    · exact hb
    · exact (broadcastsTo_pair.1 hb).1
    · exact (broadcastsTo_one.1 hb).1
    · exact (broadcastsTo_pair.1 hb).1

theorem cmcLength_ok {P : List Nat} {states : Option Nat} {N : Nat} (h : cmcLength P states = .ok N) :
    axisLen P 1 = 1 ∨ axisLen P 1 = N - 1 := by
  unfold cmcLength at h
  by_cases hl : P.length < 2
  · exact .inl (axisLen_of_ge (by omega))
  · rw [if_neg hl] at h
    obtain ⟨x, hx, h⟩ := ebind_ok.1 h
    have := (negIdx_ok (k := 1) hx).2
    rw [this]
    cases states with
    | none =>
      simp only at h
      split_ifs at h <;> cases h <;> omega
    | some n =>
      simp only at h
      split_ifs at h <;> cases h <;> omega

theorem sound_cmc {kw : Option (List Nat)} {p0 P : List Nat} {D : Nat} {states : Option Nat}
    {c : Constructed} (h : cmcConstructor kw p0 P D states = .ok c) :
    Sound c ∧ (kw = none → Least c) ∧ ∀ Q, kw = some Q → c.plates = Q := by
  unfold cmcConstructor at h
  obtain ⟨N, hN, h⟩ := ebind_ok.1 h
  obtain ⟨-, -, h⟩ := ebind_ok.1 h
  obtain ⟨x, hx, h⟩ := ebind_ok.1 h
  obtain ⟨_, h1, h⟩ := ebind_ok.1 h
  obtain ⟨f0, hf0, h⟩ := ebind_ok.1 h
  obtain ⟨f1, hf1, h⟩ := ebind_ok.1 h
  cases hf0
  cases hf1
  obtain ⟨Q, hQ, h⟩ := ebind_ok.1 h
  cases h
  rw [raiseIf_ok] at h1
  have hD : axisLen P 0 = D := by
    have := (negIdx_ok (k := 0) hx).2
    omega
  refine sound_of_total (fs := [p0, getPlates 2 P]) (by simp [platesFromParents, cmcMap, bind, Except.bind, pure,
    Except.pure]) hQ ?_ ?_
  · intro i p f P hp hf _ hb
    rcases getElem?_pair hp with ⟨rfl, rfl⟩ | ⟨rfl, rfl⟩ <;> cases hf
    · exact ⟨_, rfl, hb⟩
    · exact ⟨_, rfl, broadcastsTo_pair.2 ⟨hb, .inr hD, cmcLength_ok hN⟩⟩
  · intro i p f P q hp hf hq hb
    rcases getElem?_pair hp with ⟨rfl, rfl⟩ | ⟨rfl, rfl⟩ <;> cases hf <;> cases hq
    · exact hb
    · exact (broadcastsTo_pair.1 hb).1

/-- **C69** `CategoricalMarkovChain`. -/
theorem C69_categorical_chain {kw : Option (List Nat)} {p0 P : List Nat} {D : Nat} {states : Option Nat}
    {c c' : Constructed} (h : cmcConstructor kw p0 P D states = .ok c)
    (h' : buildStochastic kw c = .ok c') : PlatesFit kw c' := by
  obtain ⟨rfl, -⟩ := buildStochastic_ok h'
  exact platesFit_of_sound (sound_cmc h)

/-! ## Mixtures and gates -/

theorem broadcastsTo_popPlate {f R : List Nat} {g : Nat} (hg : g < R.length) (h : BroadcastsTo f R) :
    BroadcastsTo (gatePlatesFromX g f) (R.eraseIdx (R.length - (g + 1))) := by
  refine ⟨?_, fun j => ?_⟩
  · have h1 := h.1
    have h2 : (R.eraseIdx (R.length - (g + 1))).length = R.length - 1 := by
      rw [List.length_eraseIdx, if_pos (by omega)]
    rw [length_platesFromX, h2]
    split_ifs <;> omega
  · rw [axisLen_platesFromX, axisLen_popPlate hg]
    split_ifs with h1 h2
    · exact h.2 j
    · exact .inl rfl
    · exact h.2 (j + 1)

/-- A mixture of a distribution whose plates fit. -/
theorem sound_mixture {kw : Option (List Nat)} {z : List Nat} {Kz g : Nat} {raw c : Constructed} (hr : Sound raw)
    (hl : Least raw) (h : mixtureConstructor kw z Kz raw g = .ok c) :
    Sound c ∧ (kw = none → Least c) ∧ ∀ Q, kw = some Q → c.plates = Q := by
  unfold mixtureConstructor at h
  obtain ⟨_, h1, h⟩ := ebind_ok.1 h
  rw [raiseIf_ok] at h1
  obtain ⟨K, hK, h⟩ := ebind_ok.1 h
  have hK' := (negIdx_ok hK).2
  obtain ⟨-, -, h⟩ := ebind_ok.1 h
  obtain ⟨P, hP, h⟩ := ebind_ok.1 h
  cases h
  obtain ⟨hb, hgiven, hleast⟩ := totalPlates_ok hP
  have hrp := hb _ (List.mem_cons_self ..)
  have hlen : raw.plates.length - 1 ≤ P.length := by
    have := hrp.1
    rwa [List.length_eraseIdx, if_pos (by omega)] at this
  have hgP : g ≤ P.length := by omega
  refine ⟨⟨fun i p hp => ?_, fun i p f Q hp hf hQ hfb => ?_⟩, fun hk Q hQ => ?_, hgiven⟩
  · cases i with
    | zero =>
      have : z = p := by simpa using hp
      subst this
      exact ⟨_, rfl, hb _ (by simp)⟩
    | succ i =>
      obtain ⟨f, hf, hfb⟩ := hr.fits i p (by simpa using hp)
      refine ⟨gatePlatesFromX g f, by simp [mixtureMap, hf, bind, Except.bind, pure, Except.pure], ?_⟩
      exact broadcastsTo_trans (broadcastsTo_popPlate (by omega) hfb) hrp
  · change P.length ≤ Q.length at hQ
    cases i with
    | zero =>
      have : z = p := by simpa using hp
      subst this
      cases hf
      exact ⟨_, rfl, hfb⟩
    | succ i =>
      have hp' : raw.parents[i]? = some p := by simpa using hp
      obtain ⟨f', hf', hfb'⟩ := hr.fits i p hp'
      have : f = gatePlatesFromX g f' := by
        simp [mixtureMap, hf', bind, Except.bind, pure, Except.pure] at hf
        exact hf.symm
      subst this
      refine hr.mono i p f' _ hp' hf' ?_ ((broadcastsTo_insert (by omega)).2 ⟨hfb, ?_⟩)
      · rw [length_platesToX]; omega
      · have := hfb'.2 g
        rwa [hK'] at this
  · refine hleast hk Q fun p hp => ?_
    have hraw : BroadcastsTo raw.plates (gatePlatesToX g K Q) := hl _ fun i p hp => by
      obtain ⟨q, hq, hqb⟩ := hQ (i + 1) p (by simpa using hp)
      exact ⟨q, hq, hqb⟩
    have hgQ : g ≤ Q.length := by
      have := hraw.1
      rw [length_platesToX] at this
      omega
    simp only [List.mem_cons, List.not_mem_nil, or_false] at hp
    rcases hp with rfl | rfl
    · have := ((broadcastsTo_insert hgQ).1 hraw).1
      unfold gatePlatesFromX at this
      rwa [if_pos (by omega)] at this
    · obtain ⟨q, hq, hqb⟩ := hQ 0 p rfl
      cases hq
      exact hqb

/-- **C69** A `Mixture` of nodes with the default maps. -/
theorem C69_mixture_default {kw : Option (List Nat)} {z : List Nat} {Kz g : Nat} {parents : List (List Nat)}
    {raw c c' : Constructed} (hr : idConstructor none parents = .ok raw)
    (h : mixtureConstructor kw z Kz raw g = .ok c) (h' : buildStochastic kw c = .ok c') : PlatesFit kw c' := by
  obtain ⟨rfl, -⟩ := buildStochastic_ok h'
  exact platesFit_of_sound (sound_mixture (sound_id hr).1 ((sound_id hr).2.1 rfl) h)

/-- **C69** A `Mixture` of `GaussianARD`. -/
theorem C69_mixture_gaussian_ard {kw : Option (List Nat)} {z : List Nat} {Kz g : Nat} {muAlpha : List Nat}
    {ndim : Option Nat} {raw c c' : Constructed} (hr : ardConstructor none muAlpha ndim none = .ok raw)
    (h : mixtureConstructor kw z Kz raw g = .ok c) (h' : buildStochastic kw c = .ok c') : PlatesFit kw c' := by
  obtain ⟨rfl, -⟩ := buildStochastic_ok h'
  cases hs : ardShape muAlpha ndim none with
  | error e => unfold ardConstructor at hr; rw [hs] at hr; cases hr
  | ok s =>
    have hs' := sound_ard hr hs fun j hj => .inr (ardShape_infer hs j hj)
    exact platesFit_of_sound (sound_mixture hs'.1 (hs'.2.1 rfl) h)

/-- **C69** A `Mixture` of Gaussian Markov chains. -/
theorem C69_mixture_markov_chain {kw : Option (List Nat)} {z : List Nat} {Kz g D : Nat} {mu A : List Nat}
    {n : Option Nat} {raw c c' : Constructed} (hr : gmcConstructor none mu A none D n = .ok raw)
    (h : mixtureConstructor kw z Kz raw g = .ok c) (h' : buildStochastic kw c = .ok c') : PlatesFit kw c' := by
  obtain ⟨rfl, -⟩ := buildStochastic_ok h'
  exact platesFit_of_sound (sound_mixture (sound_gmc hr).1 ((sound_gmc hr).2.1 rfl) h)

/-- **C69** A `Mixture` of categorical Markov chains. -/
theorem C69_mixture_categorical_chain {kw : Option (List Nat)} {z : List Nat} {Kz g D : Nat} {p0 P : List Nat}
    {n : Option Nat} {raw c c' : Constructed} (hr : cmcConstructor none p0 P D n = .ok raw)
    (h : mixtureConstructor kw z Kz raw g = .ok c) (h' : buildStochastic kw c = .ok c') : PlatesFit kw c' := by
  obtain ⟨rfl, -⟩ := buildStochastic_ok h'
  exact platesFit_of_sound (sound_mixture (sound_cmc hr).1 ((sound_cmc hr).2.1 rfl) h)

/-- **C69** A `Mixture` of a `Mixture` of nodes with the default maps. -/
theorem C69_mixture_mixture {kw : Option (List Nat)} {z z₁ : List Nat} {Kz g Kz₁ g₁ : Nat}
    {parents : List (List Nat)} {raw inner c c' : Constructed} (hr : idConstructor none parents = .ok raw)
    (hi : mixtureConstructor none z₁ Kz₁ raw g₁ = .ok inner)
    (h : mixtureConstructor kw z Kz inner g = .ok c) (h' : buildStochastic kw c = .ok c') : PlatesFit kw c' := by
  obtain ⟨rfl, -⟩ := buildStochastic_ok h'
  have hs := sound_mixture (sound_id hr).1 ((sound_id hr).2.1 rfl) hi
  exact platesFit_of_sound (sound_mixture hs.1 (hs.2.1 rfl) h)

theorem buildDeterministic_ok {kw : Option (List Nat)} {map : ParentMap} {parents : List (List Nat)} {c : Constructed}
    (h : buildDeterministic kw map parents = .ok c) :
    ∃ fs P, platesFromParents map parents = .ok fs ∧ totalPlates kw fs = .ok P ∧ c = ⟨parents, P, map⟩ := by
  unfold buildDeterministic at h
  obtain ⟨fs, hfs, h⟩ := ebind_ok.1 h
  obtain ⟨P, hP, h⟩ := ebind_ok.1 h
  cases h
  exact ⟨fs, P, hfs, hP, rfl⟩

/-- **C69** `Gate`. -/
theorem C69_gate {kw : Option (List Nat)} {Z X : List Nat} {Kz g : Nat} {c : Constructed}
    (h : gateConstructor kw Z Kz X g = .ok c) : PlatesFit kw c := by
  unfold gateConstructor at h
  obtain ⟨_, h1, h⟩ := ebind_ok.1 h
  rw [raiseIf_ok] at h1
  obtain ⟨K, hK, h⟩ := ebind_ok.1 h
  have hK' := (negIdx_ok hK).2
  obtain ⟨-, -, h⟩ := ebind_ok.1 h
  obtain ⟨fs, P, hfs, hP, rfl⟩ := buildDeterministic_ok h
  have hfs' : fs = [Z, gatePlatesFromX g X] := by
    simp [platesFromParents, gateMap, bind, Except.bind, pure, Except.pure] at hfs
    exact hfs.symm
  subst hfs'
  have hlen : X.length - 1 ≤ P.length := by
    have := ((totalPlates_ok hP).1 (gatePlatesFromX g X) (by simp)).1
    rwa [length_platesFromX, if_neg (by omega)] at this
  refine platesFit_of_sound (sound_of_total hfs hP ?_ ?_)
  · intro i p f Q hp hf hQ hb
    change P.length ≤ Q.length at hQ
    rcases getElem?_pair hp with ⟨rfl, rfl⟩ | ⟨rfl, rfl⟩ <;> cases hf
    · exact ⟨_, rfl, hb⟩
    · exact ⟨_, rfl, (broadcastsTo_insert (by omega)).2 ⟨hb, .inr hK'⟩⟩
  · intro i p f Q q hp hf hq hb
    rcases getElem?_pair hp with ⟨rfl, rfl⟩ | ⟨rfl, rfl⟩ <;> cases hf <;> cases hq
    · exact hb
    · refine ((broadcastsTo_insert ?_).1 hb).1
      have := hb.1
      rw [length_platesToX] at this
      omega

/-- **C69** The nodes which turn the time axis of a chain into a plate axis. -/
theorem C69_unchain {kw : Option (List Nat)} {X : List Nat} {N : Nat} {c : Constructed}
    (h : buildDeterministic kw (unchainMap N) [X] = .ok c) :
    FitsParents c.map.toParent c.plates c.parents ∧ (kw = none → c.plates = X ++ [N]) := by
  obtain ⟨fs, P, hfs, hP, rfl⟩ := buildDeterministic_ok h
  have hfs' : fs = [X ++ [N]] := by
    simp [platesFromParents, unchainMap, bind, Except.bind, pure, Except.pure] at hfs
    exact hfs.symm
  subst hfs'
  constructor
  · intro i p hp
    rcases i with _ | i <;> simp at hp
    subst hp
    refine ⟨getPlates 1 P, rfl, ?_⟩
    have := (totalPlates_ok hP).1 (X ++ [N]) (by simp)
    refine ⟨?_, fun j => ?_⟩
    · have h1 := this.1
      rw [length_getPlates]
      simp at h1
      omega
    · have h1 := this.2 (j + 1)
      rw [axisLen_append, if_neg (by simp)] at h1
      rw [axisLen_getPlates]
      simpa using h1
  · rintro rfl
    exact C01_broadcast_unique _ _ _ ((broadcastedShape_ok _ _).1 hP)
      ⟨by simp, .inr ⟨_, by simp, rfl⟩, by simp, fun k => .inr ⟨_, by simp, rfl⟩⟩

/-! ## Where the plates do not fit -/

/-- `GaussianARD(mu, alpha, shape=(2,))` with parents of plates `(3,)` is accepted: the last plate axis of the parents
is dropped without looking at it. -/
theorem C69_gaussian_ard_refuted : ∃ c c', ardConstructor none [3] none (some [2]) = .ok c ∧
    buildStochastic none c = .ok c' ∧ ¬ PlatesFit none c' := by
  refine ⟨_, _, rfl, rfl, fun h => ?_⟩
  have := (C69_gaussian_ard_shape_iff (kw := none) (muAlpha := [3]) (s := [2]) rfl rfl).1 h 0 (by simp)
  simp [axisLen] at this

/-- `GaussianMarkovChain(mu, Lambda, A, nu, inputs=U)` where only the inputs have plates `(5, 9)`: the node is accepted
with plates `()` although the inputs do not broadcast to the plates `(9,)` reported towards them. -/
theorem C69_markov_chain_inputs_refuted : ∃ c c', gmcConstructor none [] [2] (some [5, 9]) 2 none = .ok c ∧
    buildStochastic none c = .ok c' ∧ c'.plates = [] ∧
      ¬ FitsParents c'.map.toParent c'.plates c'.parents := by
  refine ⟨_, _, rfl, rfl, rfl, fun h => ?_⟩
  have := (C69_markov_chain_inputs_iff (kw := none) (mu := []) (A := [2]) (inputs := [5, 9]) (D := 2) (n := none)
    rfl rfl (by decide) (by decide)).1 h
  exact absurd this.1 (by decide)

/-- Inputs with no time instance are accepted for a chain of any length. -/
theorem C69_markov_chain_no_inputs_refuted : ∃ c c', gmcConstructor none [] [2] (some [0]) 2 (some 5) = .ok c ∧
    buildStochastic none c = .ok c' ∧ ¬ FitsParents c'.map.toParent c'.plates c'.parents := by
  refine ⟨_, _, rfl, rfl, fun h => ?_⟩
  obtain ⟨q, hq, hb⟩ := h 2 [0] rfl
  cases hq
  have := hb.2 0
  simp [axisLen] at this

/-! ## Examples -/

/-- `Gaussian(mu, Lambda)` with plates `(4, 1)` and `(3,)`. -/
example : ∃ c, idConstructor none [[4, 1], [3]] = .ok c ∧ buildStochastic none c = .ok c ∧ c.plates = [4, 3] :=
  ⟨_, rfl, rfl, rfl⟩

/-- `GaussianARD(mu, alpha, ndim=1)` with parents of plates `(7, 3)`. -/
example : ∃ c, ardConstructor none [7, 3] (some 1) none = .ok c ∧ buildStochastic none c = .ok c ∧
    c.plates = [7] ∧ c.map.toParent 0 c.plates = .ok [7, 3] := ⟨_, rfl, rfl, rfl, rfl⟩

/-- `GaussianARD(0, alpha, shape=(3,), plates=(7,))` with `alpha` of plates `(3,)`. -/
example : ∃ c, ardConstructor (some [7]) [3] none (some [3]) = .ok c ∧ buildStochastic (some [7]) c = .ok c ∧
    c.plates = [7] := ⟨_, rfl, rfl, rfl⟩

/-- A chain of ten states of dimension two, with four copies. -/
example : ∃ c, gmcConstructor none [4] [9, 2] none 2 none = .ok c ∧ buildStochastic none c = .ok c ∧
    c.plates = [4] ∧ c.map.toParent 1 c.plates = .ok [4, 9, 2] := ⟨_, rfl, rfl, rfl, rfl⟩

/-- The same with inputs. -/
example : ∃ c, gmcConstructor (some [4]) [] [2] (some [4, 9]) 2 none = .ok c ∧
    buildStochastic (some [4]) c = .ok c ∧ c.map.toParent 2 c.plates = .ok [4, 9] := ⟨_, rfl, rfl, rfl⟩

example : ∃ c, varyingConstructor none [] [] [4, 2] [9] [1, 2] 2 none = .ok c ∧ buildStochastic none c = .ok c ∧
    c.plates = [4] ∧ c.map.toParent 4 c.plates = .ok [4, 9, 2] := ⟨_, rfl, rfl, rfl, rfl⟩

example : ∃ c, switchingConstructor none [] [] [3, 2] [4, 9] [2] 2 3 none = .ok c ∧ buildStochastic none c = .ok c ∧
    c.plates = [4] ∧ c.map.toParent 2 c.plates = .ok [4, 3, 2] := ⟨_, rfl, rfl, rfl, rfl⟩

example : ∃ c, cmcConstructor none [4] [1, 3] 3 (some 10) = .ok c ∧ buildStochastic none c = .ok c ∧
    c.plates = [4] ∧ c.map.toParent 1 c.plates = .ok [4, 9, 3] := ⟨_, rfl, rfl, rfl, rfl⟩

/-- A mixture of three clusters, for data of plates `(7, 5)`, with the cluster plate `-2`. -/
example : ∃ raw c, idConstructor none [[3, 5], [3, 1]] = .ok raw ∧
    mixtureConstructor none [7, 1] 3 raw 1 = .ok c ∧ buildStochastic none c = .ok c ∧ c.plates = [7, 5] ∧
      c.map.toParent 1 c.plates = .ok [7, 3, 5] := ⟨_, _, rfl, rfl, rfl, rfl, rfl⟩

example : ∃ raw c, ardConstructor none [3, 2] (some 1) none = .ok raw ∧
    mixtureConstructor none [7] 3 raw 0 = .ok c ∧ buildStochastic none c = .ok c ∧ c.plates = [7] ∧
      c.map.toParent 1 c.plates = .ok [7, 3, 2] := ⟨_, _, rfl, rfl, rfl, rfl, rfl⟩

example : ∃ raw c, gmcConstructor none [3] [9, 2] none 2 none = .ok raw ∧
    mixtureConstructor none [7] 3 raw 0 = .ok c ∧ buildStochastic none c = .ok c ∧ c.plates = [7] ∧
      c.map.toParent 2 c.plates = .ok [7, 3, 9, 2] := ⟨_, _, rfl, rfl, rfl, rfl, rfl⟩

/-- A hidden Markov model chosen among two. -/
example : ∃ raw c, cmcConstructor none [2] [2, 1, 3] 3 (some 10) = .ok raw ∧
    mixtureConstructor none [7] 2 raw 0 = .ok c ∧ buildStochastic none c = .ok c ∧ c.plates = [7] :=
  ⟨_, _, rfl, rfl, rfl, rfl⟩

example : ∃ raw inner c, idConstructor none [[4, 3], [4, 1]] = .ok raw ∧
    mixtureConstructor none [] 3 raw 0 = .ok inner ∧ mixtureConstructor none [7] 4 inner 0 = .ok c ∧
      buildStochastic none c = .ok c ∧ c.plates = [7] ∧ c.map.toParent 2 c.plates = .ok [7, 4, 3] :=
  ⟨_, _, _, rfl, rfl, rfl, rfl, rfl, rfl⟩

example : ∃ c, gateConstructor none [7] 3 [2, 3, 7] 1 = .ok c ∧
    c.plates = [2, 7] ∧ c.map.toParent 1 c.plates = .ok [2, 3, 7] := ⟨_, rfl, rfl, rfl⟩

example : ∃ c, buildDeterministic none (unchainMap 10) [[4]] = .ok c ∧ c.plates = [4, 10] := ⟨_, rfl, rfl⟩

end Verif
