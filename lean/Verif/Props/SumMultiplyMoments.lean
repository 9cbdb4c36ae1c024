import Mathlib.Algebra.Module.LinearMap.Defs
import Verif.Props.SumMultiplyInit

/-!
# C18: the moments of `SumMultiply`

A factor of the product is an input of the node: its keys, the shape `dims` of its variable (one axis per
key), its moments and the plates of the arrays of the moments.  An assignment `e` gives a position to every
key; the element of a factor at the plate `p` and the assignment `e` is `joinC n (coord (keys.map e)) p`.
-/

namespace Verif
open Spec

/-- An input of the node. -/
structure Factor (κ α : Type) where
  keys : List κ
  dims : List Nat
  /-- delta moments (no second moment) -/
  isConst : Bool
  u0 : Arr α
  u1 : Arr α
  plates0 : List Nat
  plates1 : List Nat

namespace Factor
variable {κ α : Type}

/-- Keys and shape, as given to the constructor. -/
def node (f : Factor κ α) : List κ × List Nat := (f.keys, f.dims)

/-- The moments have the shapes of the moments of a variable with shape `dims`. -/
structure Shaped (f : Factor κ α) : Prop where
  u0 : f.u0.shape = f.plates0 ++ f.dims
  u1 : f.isConst = false → f.u1.shape = f.plates1 ++ f.dims ++ f.dims

/-- Plates of the arrays from which the second moment is computed. -/
def secondPlates (f : Factor κ α) : List Nat := if f.isConst then f.plates0 else f.plates1

/-- The first moment at the plate `p` and the assignment `e`. -/
def first (f : Factor κ α) (p : Nat → Nat) (e : κ → Nat) : α :=
  f.u0.at (joinC f.keys.length (coord (f.keys.map e)) p)

/-- The second moment at the plate `p`, the row `r` and the column `c`: the product of the elements
for constants. -/
def second [Mul α] (f : Factor κ α) (p : Nat → Nat) (r c : κ → Nat) : α :=
  if f.isConst then f.first p r * f.first p c
  else f.u1.at (joinC f.keys.length (coord (f.keys.map c))
    (joinC f.keys.length (coord (f.keys.map r)) p))

/-- The moments with the renamed keys, as used by `_compute_moments`. -/
def toParent (f : Factor κ α) (ks : List Nat) : SMParent α :=
  { isConst := f.isConst, u0 := f.u0, u1 := f.u1, keys := ks }

end Factor

theorem foldl_max_eq (l : List Nat) (a M : Nat) (ha : a ≤ M) (h : ∀ x ∈ l, x ≤ M)
    (h' : M = a ∨ M ∈ l) : l.foldl max a = M := by
  induction l generalizing a with
  | nil => simp at h'; simp [h']
  | cons x l ih =>
    have hx := h x (by simp)
    rw [List.foldl_cons]
    apply ih
    · omega
    · exact fun y hy => h y (by simp [hy])
    · rcases h' with h' | h'
      · left; omega
      · rcases List.mem_cons.1 h' with h' | h'
        · left; omega
        · exact .inr h'

theorem foldl_max_plates (Ps : List (List Nat)) (P : List Nat) (h : IsBroadcast Ps P) :
    (Ps.map List.length).foldl max 0 = P.length := by
  apply foldl_max_eq
  · omega
  · intro x hx
    obtain ⟨s, hs, rfl⟩ := List.mem_map.1 hx
    exact h.rank_ge s hs
  · rcases h.rank_le with h | ⟨s, hs, h⟩
    · exact .inl h
    · exact .inr (List.mem_map.2 ⟨s, hs, h⟩)

section
variable {κ α : Type} [DecidableEq κ] [CommSemiring α]

theorem idxOf_inj_of_mem {l : List κ} {a b : κ} (ha : a ∈ l) (h : l.idxOf a = l.idxOf b) : a = b := by
  have hi := List.idxOf_lt_length_of_mem ha
  have hb : l.idxOf b < l.length := by omega
  have h1 := List.getElem_idxOf hi
  have h2 := List.getElem_idxOf hb
  rw [← h1, ← h2]
  simp only [h]

/-- **C18** (first moment).  For every number of factors, every key assignment accepted by the
constructor, any order in which the set of keys is listed, and all moments with compatible plates
(`P` is their broadcast shape), the first moment is the requested contraction: the product of the first
moments summed over all keys which are not output keys (listed by `K` in any order). -/
theorem C18_first_moment {setList : List κ → List κ} (hset : ListsSet setList)
    (fs : List (Factor κ α)) (out : List κ) (nd : SMNode) (size : κ → Nat)
    (hinit : smInit setList (fs.map Factor.node) out = .ok nd)
    (hsize : KeySizes (fs.map Factor.node) size) (hsh : ∀ f ∈ fs, f.Shaped)
    (P : List Nat) (hP : IsBroadcast (fs.map (·.plates0)) P)
    (K : List κ) (hKnd : K.Nodup) (hK : ∀ k, k ∈ K ↔ (∃ f ∈ fs, k ∈ f.keys) ∧ k ∉ out) :
    ∃ y, smMean nd.nKeys nd.outKeys ((fs.map (·.u0)).zip nd.inKeys) = .ok y ∧
      y.shape = P ++ nd.shape ∧
      ∀ p e, ValidIn P p → (∀ k ∈ out, e k < size k) →
        y.at (joinC out.length (coord (out.map e)) p) =
          sumKeys (K.map fun k => (k, size k)) (fun e => (fs.map fun f => f.first p e).prod) e := by
  have hgood := ((C18_constructor hset _ out).1).1 ⟨nd, hinit⟩
  obtain ⟨hw, -⟩ := hgood
  rw [smInit_good hset hw hsize] at hinit
  cases hinit
  set full := setList ((fs.map Factor.node).flatMap (·.1)) with hfulldef
  have hfull : ∀ k, k ∈ full ↔ ∃ f ∈ fs, k ∈ f.keys := by
    intro k
    rw [hfulldef, (hset _).2 k]
    simp [Factor.node]
  have hlen : ∀ f ∈ fs, f.dims.length = f.keys.length := fun f hf =>
    hw.length f.node (List.mem_map_of_mem hf)
  set ops : List (Arr α × List κ) := fs.map fun f => (f.u0, f.keys) with hops
  have hmem : ∀ k, (∃ op ∈ ops, k ∈ op.2) ↔ ∃ f ∈ fs, k ∈ f.keys := by
    intro k; simp [hops]
  have hpc : ∀ f ∈ fs, f.u0.shape.length - f.keys.length = f.plates0.length := by
    intro f hf
    rw [(hsh f hf).u0, List.length_append, hlen f hf]
    omega
  have htake : ∀ f ∈ fs, f.u0.shape.take (f.u0.shape.length - f.keys.length) = f.plates0 := by
    intro f hf
    rw [hpc f hf, (hsh f hf).u0]
    simp
  have hdrop : ∀ f ∈ fs, f.u0.shape.drop (f.u0.shape.length - f.keys.length) = f.dims := by
    intro f hf
    rw [hpc f hf, (hsh f hf).u0]
    simp
  obtain ⟨y, hy, hys, hyat⟩ := npEinsum_plates ops out full.idxOf size full.length K P
    (by
      intro op hop k hk
      apply List.idxOf_lt_length_of_mem
      exact (hfull k).2 ((hmem k).1 ⟨op, hop, hk⟩))
    (fun a b ha hb h => idxOf_inj_of_mem ((hfull a).2 ((hmem a).1 ha)) h)
    (by
      intro op hop
      obtain ⟨f, hf, rfl⟩ := List.mem_map.1 hop
      simp only [(hsh f hf).u0, List.length_append, hlen f hf]
      omega)
    (by
      rw [hops, List.map_map]
      have : fs.map ((fun op : Arr α × List κ => op.1.shape.take (op.1.shape.length - op.2.length)) ∘
          fun f => (f.u0, f.keys)) = fs.map (·.plates0) :=
        List.map_congr_left fun f hf => htake f hf
      rw [this]
      exact hP)
    (by
      intro op hop p hp
      obtain ⟨f, hf, rfl⟩ := List.mem_map.1 hop
      rw [hdrop f hf] at hp
      exact hsize.fits f.node (List.mem_map_of_mem hf) p hp)
    (by
      intro k _
      rcases hsize.attained k with h | ⟨nd, hnd, h⟩
      · exact .inl h
      · obtain ⟨f, hf, rfl⟩ := List.mem_map.1 hnd
        refine .inr ⟨_, List.mem_map_of_mem hf, ?_⟩
        rw [hdrop f hf]
        exact h)
    hw.out_nodup
    (by
      intro k hk
      rw [hmem]
      obtain ⟨nd, hnd, h⟩ := hw.out_mem k hk
      obtain ⟨f, hf, rfl⟩ := List.mem_map.1 hnd
      exact ⟨f, hf, h⟩)
    hKnd (fun k => by rw [hK, hmem])
  have hzip : (fs.map (·.u0)).zip (smGood setList (fs.map Factor.node) out size).inKeys
      = fs.map fun f => (f.u0, f.keys.map full.idxOf) := by
    simp only [smGood, List.map_map]
    rw [List.zip_map']
    rfl
  refine ⟨y, ?_, hys, ?_⟩
  · rw [hzip, ← hy]
    unfold smMean
    simp only [List.map_map, hops]
    have h1 : (fs.map ((fun u : Arr α × List Nat => u.1.shape.length - u.2.length) ∘
        fun f => (f.u0, f.keys.map full.idxOf))).foldl max 0 = P.length := by
      rw [← foldl_max_plates _ P hP, List.map_map]
      congr 1
      apply List.map_congr_left
      intro f hf
      simp only [Function.comp, List.length_map]
      exact hpc f hf
    rw [h1]
    congr 1
    apply List.map_congr_left
    intro f hf
    simp only [Function.comp, List.length_map]
    rfl
  · intro p e hp he
    rw [hyat p e hp he, hops]
    congr 1
    funext e
    rw [List.map_map]
    rfl

/-! ## The second moment -/

/-- Rows: the first copy of the keys. -/
def rowKey (k : κ) : Bool × κ := (true, k)
/-- Columns: the second copy of the keys. -/
def colKey (k : κ) : Bool × κ := (false, k)

/-- The operands of the second moment with duplicated keys. -/
def secondOps (f : Factor κ α) : List (Arr α × List (Bool × κ)) :=
  if !f.isConst then [(f.u1, f.keys.map rowKey ++ f.keys.map colKey)]
  else [(f.u0, f.keys.map rowKey), (f.u0, f.keys.map colKey)]

omit [DecidableEq κ] in
theorem coord_append (a b : List Nat) (p : Nat → Nat) :
    joinC (a ++ b).length (coord (a ++ b)) p = joinC b.length (coord b) (joinC a.length (coord a) p) := by
  funext k
  unfold joinC coord
  rw [List.length_append, List.reverse_append]
  simp only [List.getD_eq_getElem?_getD]
  by_cases h : k < b.length
  · rw [if_pos (by omega), if_pos h, List.getElem?_append_left (by simpa using h)]
  · rw [if_neg h]
    by_cases h2 : k - b.length < a.length
    · rw [if_pos (by omega), if_pos h2, List.getElem?_append_right (by simp; omega)]
      simp
    · rw [if_neg (by omega), if_neg h2]
      congr 1
      omega

omit [DecidableEq κ] in
theorem secondOps_prod (f : Factor κ α) (p : Nat → Nat) (e : Bool × κ → Nat) :
    ((secondOps f).map fun op => op.1.at (joinC op.2.length (coord (op.2.map e)) p)).prod
      = f.second p (fun k => e (rowKey k)) (fun k => e (colKey k)) := by
  unfold secondOps Factor.second
  by_cases h : f.isConst = true
  · simp only [h, Bool.not_true, Bool.false_eq_true, if_false, if_true, List.map_cons, List.map_nil,
      List.prod_cons, List.prod_nil, mul_one, Factor.first, List.length_map, List.map_map]
    rfl
  · have h' : f.isConst = false := by simpa using h
    simp only [h', Bool.not_false, if_true, List.map_cons, List.map_nil, List.prod_cons, List.prod_nil,
      mul_one, Bool.false_eq_true, if_false, List.map_append, List.map_map]
    have := coord_append (f.keys.map (e ∘ rowKey)) (f.keys.map (e ∘ colKey)) p
    simp only [List.length_append, List.length_map] at this ⊢
    rw [this]
    rfl

theorem sumKeys_rowcol (K K' : List κ) (size : κ → Nat) (G : (κ → Nat) → (κ → Nat) → α)
    (e : Bool × κ → Nat) :
    sumKeys ((K.map rowKey ++ K'.map colKey).map fun k => (k, size k.2))
      (fun e => G (fun k => e (rowKey k)) (fun k => e (colKey k))) e
    = sumKeys (K.map fun k => (k, size k)) (fun r =>
        sumKeys (K'.map fun k => (k, size k)) (fun c => G r c) fun k => e (colKey k))
        fun k => e (rowKey k) := by
  induction K generalizing e with
  | nil =>
    simp only [List.map_nil, List.nil_append, sumKeys]
    induction K' generalizing e with
    | nil => rfl
    | cons k K' ih =>
      simp only [List.map_cons, sumKeys]
      apply Finset.sum_congr rfl
      intro t _
      rw [ih]
      have h1 : (fun k' => Function.update e (colKey k) t (rowKey k')) = fun k' => e (rowKey k') := by
        funext k'
        simp [Function.update, rowKey, colKey]
      have h2 : (fun k' => Function.update e (colKey k) t (colKey k'))
          = Function.update (fun k' => e (colKey k')) k t := by
        funext k'
        by_cases h : k' = k
        · subst h; simp
        · simp [Function.update, colKey, h]
      rw [h1]
      simp only [colKey] at h2 ⊢
      rw [h2]
  | cons k K ih =>
    simp only [List.map_cons, List.cons_append, sumKeys]
    apply Finset.sum_congr rfl
    intro t _
    rw [ih]
    have h1 : (fun k' => Function.update e (rowKey k) t (colKey k')) = fun k' => e (colKey k') := by
      funext k'
      simp [Function.update, rowKey, colKey]
    have h2 : (fun k' => Function.update e (rowKey k) t (rowKey k'))
        = Function.update (fun k' => e (rowKey k')) k t := by
      funext k'
      by_cases h : k' = k
      · subst h; simp
      · simp [Function.update, rowKey, h]
    simp only [rowKey, colKey] at h1 h2 ⊢
    rw [h1, h2]

/-- **C18** (second moment).  The second moment contracts two copies of the keys: for the row `r` and the
column `c` of the output it is the product of the second moments of the factors, summed over all
positions of the other keys in the row and, independently, in the column.  Factors with delta moments
contribute the product of their elements. -/
theorem C18_second_moment {setList : List κ → List κ} (hset : ListsSet setList)
    (fs : List (Factor κ α)) (out : List κ) (nd : SMNode) (size : κ → Nat)
    (hinit : smInit setList (fs.map Factor.node) out = .ok nd)
    (hsize : KeySizes (fs.map Factor.node) size) (hsh : ∀ f ∈ fs, f.Shaped)
    (P : List Nat) (hP : IsBroadcast (fs.map (·.secondPlates)) P)
    (K : List κ) (hKnd : K.Nodup) (hK : ∀ k, k ∈ K ↔ (∃ f ∈ fs, k ∈ f.keys) ∧ k ∉ out) :
    ∃ y, smSecond nd.nKeys nd.outKeys ((fs.zip nd.inKeys).map fun x => x.1.toParent x.2) = .ok y ∧
      y.shape = P ++ nd.shape ++ nd.shape ∧
      ∀ p r c, ValidIn P p → (∀ k ∈ out, r k < size k) → (∀ k ∈ out, c k < size k) →
        y.at (joinC out.length (coord (out.map c)) (joinC out.length (coord (out.map r)) p)) =
          sumKeys (K.map fun k => (k, size k)) (fun r =>
            sumKeys (K.map fun k => (k, size k)) (fun c =>
              (fs.map fun f => f.second p r c).prod) c) r := by
  have hgood := ((C18_constructor hset _ out).1).1 ⟨nd, hinit⟩
  obtain ⟨hw, -⟩ := hgood
  rw [smInit_good hset hw hsize] at hinit
  cases hinit
  set full := setList ((fs.map Factor.node).flatMap (·.1)) with hfulldef
  have hfull : ∀ k, k ∈ full ↔ ∃ f ∈ fs, k ∈ f.keys := by
    intro k
    rw [hfulldef, (hset _).2 k]
    simp [Factor.node]
  have hlen : ∀ f ∈ fs, f.dims.length = f.keys.length := fun f hf =>
    hw.length f.node (List.mem_map_of_mem hf)
  set ℓ : Bool × κ → Nat := fun x => if x.1 then full.length + full.idxOf x.2 else full.idxOf x.2
    with hℓ
  set ops : List (Arr α × List (Bool × κ)) := fs.flatMap secondOps with hops
  -- the operands of one factor
  have hop : ∀ f ∈ fs, ∀ op ∈ secondOps f,
      op.1.shape.length - op.2.length = f.secondPlates.length ∧
      op.2.length ≤ op.1.shape.length ∧
      op.1.shape.take (op.1.shape.length - op.2.length) = f.secondPlates ∧
      (∀ k, k ∈ op.2 → k.2 ∈ f.keys) ∧
      ∀ b k d, ((b, k), d) ∈ op.2.zip (op.1.shape.drop (op.1.shape.length - op.2.length)) →
        (k, d) ∈ f.keys.zip f.dims := by
    intro f hf op hop
    unfold secondOps at hop
    by_cases hc : f.isConst = true
    · have hd : f.u0.shape.length - f.keys.length = f.plates0.length := by
        rw [(hsh f hf).u0, List.length_append, hlen f hf]; omega
      have hcol : ∀ (b : Bool) (g : κ → Bool × κ), (∀ k, g k = (b, k)) →
          ∀ b' k d, ((b', k), d) ∈ (f.keys.map g).zip f.dims → (k, d) ∈ f.keys.zip f.dims := by
        intro b g hg b' k d h
        rw [List.zip_map_left, List.mem_map] at h
        obtain ⟨⟨k', d'⟩, h, he⟩ := h
        simp only [Prod.map, id, hg, Prod.mk.injEq] at he
        obtain ⟨⟨_, rfl⟩, rfl⟩ := he
        exact h
      simp only [hc, Bool.not_true, Bool.false_eq_true, if_false, List.mem_cons, List.not_mem_nil,
        or_false] at hop
      rcases hop with rfl | rfl
      all_goals
        simp only [List.length_map, Factor.secondPlates, hc, if_true, hd]
        refine ⟨trivial, ?_, ?_, ?_, ?_⟩
        · rw [(hsh f hf).u0, List.length_append, hlen f hf]; omega
        · rw [(hsh f hf).u0]; simp
        · intro k hk
          obtain ⟨k', hk', rfl⟩ := List.mem_map.1 hk
          exact hk'
        · rw [(hsh f hf).u0, List.drop_left]
          first
            | exact hcol true rowKey (fun _ => rfl)
            | exact hcol false colKey (fun _ => rfl)
    · have hc' : f.isConst = false := by simpa using hc
      have hd : f.u1.shape.length - (f.keys.length + f.keys.length) = f.plates1.length := by
        rw [(hsh f hf).u1 hc', List.length_append, List.length_append, hlen f hf]; omega
      simp only [hc', Bool.not_false, if_true, List.mem_cons, List.not_mem_nil, or_false] at hop
      subst hop
      simp only [List.length_append, List.length_map, Factor.secondPlates, hc', Bool.false_eq_true,
        if_false, hd]
      refine ⟨trivial, ?_, ?_, ?_, ?_⟩
      · rw [(hsh f hf).u1 hc', List.length_append, List.length_append, hlen f hf]; omega
      · rw [(hsh f hf).u1 hc', List.append_assoc, List.take_left]
      · intro k hk
        rcases List.mem_append.1 hk with hk | hk
        all_goals
          obtain ⟨k', hk', rfl⟩ := List.mem_map.1 hk
          exact hk'
      · intro b k d h
        rw [(hsh f hf).u1 hc', List.append_assoc, List.drop_left,
          List.zip_append (by simp [hlen f hf])] at h
        rcases List.mem_append.1 h with h' | h'
        all_goals
          rw [List.zip_map_left, List.mem_map] at h'
          obtain ⟨⟨k', d'⟩, h'', he⟩ := h'
          simp only [Prod.map, id, rowKey, colKey, Prod.mk.injEq] at he
          obtain ⟨⟨_, rfl⟩, rfl⟩ := he
          exact h''
  have hzipmem : ∀ f ∈ fs, ∀ b k d, (k, d) ∈ f.keys.zip f.dims → ∃ op ∈ secondOps f,
      ((b, k), d) ∈ op.2.zip (op.1.shape.drop (op.1.shape.length - op.2.length)) := by
    intro f hf b k d h
    unfold secondOps
    by_cases hc : f.isConst = true
    · have hd : f.u0.shape.length - f.keys.length = f.plates0.length := by
        rw [(hsh f hf).u0, List.length_append, hlen f hf]; omega
      simp only [hc, Bool.not_true, Bool.false_eq_true, if_false, List.mem_cons, List.not_mem_nil,
        or_false, exists_eq_or_imp, exists_eq_left, List.length_map, hd]
      rw [(hsh f hf).u0, List.drop_left]
      cases b
      · right
        rw [List.zip_map_left]
        exact List.mem_map.2 ⟨_, h, rfl⟩
      · left
        rw [List.zip_map_left]
        exact List.mem_map.2 ⟨_, h, rfl⟩
    · have hc' : f.isConst = false := by simpa using hc
      have hd : f.u1.shape.length - (f.keys.length + f.keys.length) = f.plates1.length := by
        rw [(hsh f hf).u1 hc', List.length_append, List.length_append, hlen f hf]; omega
      simp only [hc', Bool.not_false, if_true, List.mem_cons, List.not_mem_nil, or_false,
        exists_eq_left, List.length_append, List.length_map, hd]
      rw [(hsh f hf).u1 hc', List.append_assoc, List.drop_left,
          List.zip_append (by simp [hlen f hf]), List.mem_append]
      cases b
      · right
        rw [List.zip_map_left]
        exact List.mem_map.2 ⟨_, h, rfl⟩
      · left
        rw [List.zip_map_left]
        exact List.mem_map.2 ⟨_, h, rfl⟩
  have hkeymem : ∀ f ∈ fs, ∀ k ∈ f.keys, ∀ b, ∃ op ∈ secondOps f, (b, k) ∈ op.2 := by
    intro f hf k hk b
    obtain ⟨i, hi, rfl⟩ := List.getElem_of_mem hk
    have : (f.keys[i], f.dims[i]'(by rw [hlen f hf]; exact hi)) ∈ f.keys.zip f.dims := by
      apply List.mem_iff_getElem.2
      exact ⟨i, by simp [hlen f hf, hi], by simp⟩
    obtain ⟨op, h1, h2⟩ := hzipmem f hf b _ _ this
    exact ⟨op, h1, (List.of_mem_zip h2).1⟩
  have hmem : ∀ x : Bool × κ, (∃ op ∈ ops, x ∈ op.2) ↔ ∃ f ∈ fs, x.2 ∈ f.keys := by
    rintro ⟨b, k⟩
    simp only [hops, List.mem_flatMap]
    constructor
    · rintro ⟨op, ⟨f, hf, ho⟩, hk⟩
      exact ⟨f, hf, (hop f hf op ho).2.2.2.1 _ hk⟩
    · rintro ⟨f, hf, hk⟩
      obtain ⟨op, h1, h2⟩ := hkeymem f hf k hk b
      exact ⟨op, ⟨f, hf, h1⟩, h2⟩
  have hne : ∀ f ∈ fs, secondOps f ≠ [] := by
    intro f _
    unfold secondOps
    split <;> simp
  have hrow : Function.Injective (rowKey : κ → Bool × κ) := fun a b h => (Prod.mk.inj h).2
  have hcol : Function.Injective (colKey : κ → Bool × κ) := fun a b h => (Prod.mk.inj h).2
  have hmr : ∀ (l : List κ) (x : Bool × κ), x ∈ l.map rowKey ++ l.map colKey ↔ x.2 ∈ l := by
    rintro l ⟨b, k⟩
    cases b <;> simp [rowKey, colKey]
  have hndr : ∀ l : List κ, l.Nodup → (l.map rowKey ++ l.map colKey).Nodup := by
    intro l hl
    rw [List.nodup_append]
    refine ⟨hl.map hrow, hl.map hcol, ?_⟩
    intro a ha b hb he
    obtain ⟨a', _, rfl⟩ := List.mem_map.1 ha
    obtain ⟨b', _, rfl⟩ := List.mem_map.1 hb
    have := (Prod.mk.inj he).1
    cases this
  have hPops : IsBroadcast (ops.map fun op => op.1.shape.take (op.1.shape.length - op.2.length)) P := by
    have key : ∀ s, s ∈ (ops.map fun op => op.1.shape.take (op.1.shape.length - op.2.length)) ↔
        s ∈ fs.map (·.secondPlates) := by
      intro s
      simp only [hops, List.mem_map, List.mem_flatMap]
      constructor
      · rintro ⟨op, ⟨f, hf, ho⟩, rfl⟩
        exact ⟨f, hf, ((hop f hf op ho).2.2.1).symm⟩
      · rintro ⟨f, hf, rfl⟩
        obtain ⟨op, ho⟩ := List.exists_mem_of_ne_nil _ (hne f hf)
        exact ⟨op, ⟨f, hf, ho⟩, (hop f hf op ho).2.2.1⟩
    refine ⟨fun s hs => hP.rank_ge s ((key s).1 hs), ?_, fun k s hs => hP.fits k s ((key s).1 hs), ?_⟩
    · rcases hP.rank_le with h | ⟨s, hs, h⟩
      · exact .inl h
      · exact .inr ⟨s, (key s).2 hs, h⟩
    · intro k
      rcases hP.attained k with h | ⟨s, hs, h⟩
      · exact .inl h
      · exact .inr ⟨s, (key s).2 hs, h⟩
  obtain ⟨y, hy, hys, hyat⟩ := npEinsum_plates ops (out.map rowKey ++ out.map colKey) ℓ
    (fun x => size x.2) (2 * full.length) (K.map rowKey ++ K.map colKey) P
    (by
      intro op ho x hx
      have := List.idxOf_lt_length_of_mem ((hfull x.2).2 ((hmem x).1 ⟨op, ho, hx⟩))
      simp only [hℓ]
      split <;> omega)
    (by
      rintro ⟨b, k⟩ ⟨b', k'⟩ ha hb h
      have h1 := (hfull k).2 ((hmem _).1 ha)
      have h2 := (hfull k').2 ((hmem _).1 hb)
      have h3 := List.idxOf_lt_length_of_mem h1
      have h4 := List.idxOf_lt_length_of_mem h2
      simp only [hℓ] at h
      have : full.idxOf k = full.idxOf k' ∧ b = b' := by
        cases b <;> cases b' <;> simp at h ⊢ <;> omega
      rw [idxOf_inj_of_mem h1 this.1, this.2])
    (by
      intro op ho
      obtain ⟨f, hf, ho⟩ := List.mem_flatMap.1 ho
      exact (hop f hf op ho).2.1)
    hPops
    (by
      rintro op ho ⟨⟨b, k⟩, d⟩ hp
      obtain ⟨f, hf, ho⟩ := List.mem_flatMap.1 ho
      exact hsize.fits f.node (List.mem_map_of_mem hf) (k, d) ((hop f hf op ho).2.2.2.2 b k d hp))
    (by
      rintro ⟨b, k⟩ _
      rcases hsize.attained k with h | ⟨nd, hnd, h⟩
      · exact .inl h
      · obtain ⟨f, hf, rfl⟩ := List.mem_map.1 hnd
        obtain ⟨op, h1, h2⟩ := hzipmem f hf b _ _ h
        exact .inr ⟨op, List.mem_flatMap.2 ⟨f, hf, h1⟩, h2⟩)
    (hndr out hw.out_nodup)
    (by
      intro x hx
      rw [hmem]
      obtain ⟨nd, hnd, h⟩ := hw.out_mem x.2 ((hmr out x).1 hx)
      obtain ⟨f, hf, rfl⟩ := List.mem_map.1 hnd
      exact ⟨f, hf, h⟩)
    (hndr K hKnd)
    (fun x => by rw [hmr, hmr, hmem, hK])
  have hzip : ((fs.zip (smGood setList (fs.map Factor.node) out size).inKeys).map
      fun x => x.1.toParent x.2) = fs.map fun f => f.toParent (f.keys.map full.idxOf) := by
    simp only [smGood, List.map_map]
    conv_lhs => rw [show fs.zip (fs.map ((fun nd : List κ × List Nat => nd.1.map full.idxOf) ∘ Factor.node))
      = (fs.map id).zip (fs.map ((fun nd : List κ × List Nat => nd.1.map full.idxOf) ∘ Factor.node)) by
        rw [List.map_id]]
    rw [List.zip_map', List.map_map]
    rfl
  have hpc1 : ∀ f ∈ fs, (f.toParent (f.keys.map full.idxOf)).plateCount1 = f.secondPlates.length := by
    intro f hf
    unfold SMParent.plateCount1 Factor.toParent Factor.secondPlates
    by_cases hc : f.isConst = true
    · simp only [hc, Bool.not_true, Bool.false_eq_true, if_false, if_true, List.length_map]
      rw [(hsh f hf).u0, List.length_append, hlen f hf]; omega
    · have hc' : f.isConst = false := by simpa using hc
      simp only [hc', Bool.not_false, if_true, Bool.false_eq_true, if_false, List.length_map]
      rw [(hsh f hf).u1 hc', List.length_append, List.length_append, hlen f hf]; omega
  refine ⟨y, ?_, ?_, ?_⟩
  · rw [hzip, ← hy]
    unfold smSecond
    simp only [List.map_map]
    have h1 : (fs.map ((fun u : SMParent α => u.plateCount1) ∘
        fun f => f.toParent (f.keys.map full.idxOf))).foldl max 0 = P.length := by
      rw [← foldl_max_plates _ P hP, List.map_map]
      congr 1
      apply List.map_congr_left
      intro f hf
      exact hpc1 f hf
    rw [h1]
    have h2 : (smGood setList (fs.map Factor.node) out size).outKeys.map
        ((smGood setList (fs.map Factor.node) out size).nKeys + ·) = (out.map rowKey).map ℓ := by
      simp only [smGood, List.map_map]
      apply List.map_congr_left
      intro k _
      simp [hℓ, rowKey, hfulldef]
    have h3 : (smGood setList (fs.map Factor.node) out size).outKeys = (out.map colKey).map ℓ := by
      simp only [smGood, List.map_map]
      apply List.map_congr_left
      intro k _
      simp [hℓ, colKey, hfulldef]
    rw [h2, h3, List.map_append, List.append_assoc]
    have h4 : (smGood setList (fs.map Factor.node) out size).nKeys = full.length := rfl
    rw [h4]
    congr 1
    rw [hops, List.map_flatMap, List.flatMap_map]
    apply List.flatMap_congr
    intro f hf
    rw [hpc1 f hf]
    have hr : (f.keys.map full.idxOf).map (full.length + ·) = (f.keys.map rowKey).map ℓ := by
      simp only [List.map_map]
      apply List.map_congr_left
      intro k _
      simp [hℓ, rowKey]
    have hcl : f.keys.map full.idxOf = (f.keys.map colKey).map ℓ := by
      simp only [List.map_map]
      apply List.map_congr_left
      intro k _
      simp [hℓ, colKey]
    have hlab : (secondOps f).map (fun op =>
        (op.1, plateLabels (2 * full.length) (op.1.shape.length - op.2.length) ++ op.2.map ℓ))
        = (secondOps f).map (fun op =>
          (op.1, plateLabels (2 * full.length) f.secondPlates.length ++ op.2.map ℓ)) := by
      apply List.map_congr_left
      intro op ho
      rw [(hop f hf op ho).1]
    rw [hlab]
    unfold secondOps Factor.toParent
    simp only
    by_cases hc : f.isConst = true
    · simp only [hc, Bool.not_true, Bool.false_eq_true, if_false, List.map_cons, List.map_nil]
      rw [hr, ← hcl]
    · have hc' : f.isConst = false := by simpa using hc
      simp only [hc', Bool.not_false, if_true, List.map_cons, List.map_nil, List.map_append]
      rw [hr, ← hcl, List.append_assoc]
  · rw [hys]
    simp only [List.map_append, List.map_map, List.append_assoc]
    rfl
  · intro p r c hp hr hc
    have := hyat p (fun x => if x.1 then r x.2 else c x.2) hp (by
      rintro ⟨b, k⟩ hx
      have hk := (hmr out (b, k)).1 hx
      cases b
      · exact hc k hk
      · exact hr k hk)
    rw [List.map_append, List.map_map, List.map_map] at this
    have hj := coord_append (out.map ((fun x : Bool × κ => if x.1 then r x.2 else c x.2) ∘ rowKey))
      (out.map ((fun x : Bool × κ => if x.1 then r x.2 else c x.2) ∘ colKey)) p
    simp only [List.length_append, List.length_map] at hj this
    rw [hj] at this
    have e1 : ((fun x : Bool × κ => if x.1 then r x.2 else c x.2) ∘ rowKey) = r := by
      funext k; simp [rowKey]
    have e2 : ((fun x : Bool × κ => if x.1 then r x.2 else c x.2) ∘ colKey) = c := by
      funext k; simp [colKey]
    rw [e1, e2] at this
    rw [this]
    have hF : (fun e : Bool × κ → Nat =>
        (ops.map fun op => op.1.at (joinC op.2.length (coord (op.2.map e)) p)).prod)
        = fun e => (fs.map fun f => f.second p (fun k => e (rowKey k)) (fun k => e (colKey k))).prod := by
      funext e
      rw [hops, List.map_flatMap, List.flatMap_def, List.prod_flatten, List.map_map]
      congr 1
      apply List.map_congr_left
      intro f _
      exact secondOps_prod f p e
    rw [hF, sumKeys_rowcol K K size (fun r c => (fs.map fun f => f.second p r c).prod)]
    simp [rowKey, colKey]

/-! ## Expectations -/

theorem sumKeys_apply {Ω : Type} (L : List (κ × Nat)) (f : (κ → Nat) → Ω → α) (e : κ → Nat) (ω : Ω) :
    sumKeys L f e ω = sumKeys L (fun e => f e ω) e := by
  induction L generalizing e with
  | nil => rfl
  | cons p L ih =>
    obtain ⟨k, d⟩ := p
    simp only [sumKeys, Finset.sum_apply, ih]

theorem sumKeys_map {Ω : Type} (E : (Ω → α) →ₗ[α] α) (L : List (κ × Nat)) (f : (κ → Nat) → Ω → α)
    (e : κ → Nat) : E (sumKeys L f e) = sumKeys L (fun e => E (f e)) e := by
  induction L generalizing e with
  | nil => rfl
  | cons p L ih =>
    obtain ⟨k, d⟩ := p
    simp only [sumKeys, map_sum, ih]

theorem sumKeys_mul_const (L : List (κ × Nat)) (f : (κ → Nat) → α) (a : α) (e : κ → Nat) :
    sumKeys L f e * a = sumKeys L (fun e => f e * a) e := by
  induction L generalizing e with
  | nil => rfl
  | cons p L ih =>
    obtain ⟨k, d⟩ := p
    simp only [sumKeys, Finset.sum_mul, ih]

theorem sumKeys_const_mul (L : List (κ × Nat)) (f : (κ → Nat) → α) (a : α) (e : κ → Nat) :
    a * sumKeys L f e = sumKeys L (fun e => a * f e) e := by
  induction L generalizing e with
  | nil => rfl
  | cons p L ih =>
    obtain ⟨k, d⟩ := p
    simp only [sumKeys, Finset.mul_sum, ih]

/-- The requested contraction of arrays `xs` (one per factor, as functions of the coordinates of the
variable): the product summed over the keys in `K`. -/
def contraction {Ω : Type} (fs : List (Factor κ α)) (xs : List ((Nat → Nat) → Ω → α)) (K : List κ)
    (size : κ → Nat) (e : κ → Nat) (ω : Ω) : α :=
  sumKeys (K.map fun k => (k, size k))
    (fun e => ((fs.zip xs).map fun fx => fx.2 (coord (fx.1.keys.map e)) ω).prod) e

theorem prod_zip_left {β γ : Type} (l : List β) (m : List γ) (h : m.length = l.length) (g : β → α)
    (g' : β × γ → α) (hg : ∀ x ∈ l.zip m, g' x = g x.1) :
    ((l.zip m).map g').prod = (l.map g).prod := by
  induction l generalizing m with
  | nil => rfl
  | cons b l ih =>
    cases m with
    | nil => simp at h
    | cons c m =>
      simp only [List.zip_cons_cons, List.map_cons, List.prod_cons]
      rw [ih m (by simpa using h) (fun x hx => hg x (by simp [hx])), hg (b, c) (by simp)]

/-- **C18** (expectation).  Let the inputs at the plate `p` be random arrays `xs` under any linear
expectation `E`, let the moments of the factors be the expectations of their elements and of the
products of two of their elements, and let the factors be independent (the expectation of a product over
the factors is the product of the expectations).  Then the computed moments are the expectations of the
requested contraction `y` and of the products of two elements of `y`. -/
theorem C18_expectation {setList : List κ → List κ} (hset : ListsSet setList)
    (fs : List (Factor κ α)) (out : List κ) (nd : SMNode) (size : κ → Nat)
    (hinit : smInit setList (fs.map Factor.node) out = .ok nd)
    (hsize : KeySizes (fs.map Factor.node) size) (hsh : ∀ f ∈ fs, f.Shaped)
    (P0 P1 : List Nat) (hP0 : IsBroadcast (fs.map (·.plates0)) P0)
    (hP1 : IsBroadcast (fs.map (·.secondPlates)) P1)
    (K : List κ) (hKnd : K.Nodup) (hK : ∀ k, k ∈ K ↔ (∃ f ∈ fs, k ∈ f.keys) ∧ k ∉ out) :
    ∃ y0 y1, smMean nd.nKeys nd.outKeys ((fs.map (·.u0)).zip nd.inKeys) = .ok y0 ∧
      smSecond nd.nKeys nd.outKeys ((fs.zip nd.inKeys).map fun x => x.1.toParent x.2) = .ok y1 ∧
      ∀ (Ω : Type) (E : (Ω → α) →ₗ[α] α) (xs : List ((Nat → Nat) → Ω → α)) (p : Nat → Nat),
        xs.length = fs.length →
        (∀ fx ∈ fs.zip xs, ∀ e, E (fx.2 (coord (fx.1.keys.map e))) = fx.1.first p e) →
        (∀ fx ∈ fs.zip xs, ∀ r c, E (fun ω => fx.2 (coord (fx.1.keys.map r)) ω *
          fx.2 (coord (fx.1.keys.map c)) ω) = fx.1.second p r c) →
        (∀ e, E (fun ω => ((fs.zip xs).map fun fx => fx.2 (coord (fx.1.keys.map e)) ω).prod) =
          ((fs.zip xs).map fun fx => E (fx.2 (coord (fx.1.keys.map e)))).prod) →
        (∀ r c, E (fun ω => ((fs.zip xs).map fun fx => fx.2 (coord (fx.1.keys.map r)) ω *
            fx.2 (coord (fx.1.keys.map c)) ω).prod) =
          ((fs.zip xs).map fun fx => E (fun ω => fx.2 (coord (fx.1.keys.map r)) ω *
            fx.2 (coord (fx.1.keys.map c)) ω)).prod) →
        (∀ e, ValidIn P0 p → (∀ k ∈ out, e k < size k) →
          y0.at (joinC out.length (coord (out.map e)) p) = E (contraction fs xs K size e)) ∧
        ∀ r c, ValidIn P1 p → (∀ k ∈ out, r k < size k) → (∀ k ∈ out, c k < size k) →
          y1.at (joinC out.length (coord (out.map c)) (joinC out.length (coord (out.map r)) p)) =
            E (fun ω => contraction fs xs K size r ω * contraction fs xs K size c ω) := by
  obtain ⟨y0, h0, -, hat0⟩ := C18_first_moment hset fs out nd size hinit hsize hsh P0 hP0 K hKnd hK
  obtain ⟨y1, h1, -, hat1⟩ := C18_second_moment hset fs out nd size hinit hsize hsh P1 hP1 K hKnd hK
  refine ⟨y0, y1, h0, h1, ?_⟩
  intro Ω E xs p hl hm1 hm2 hi1 hi2
  constructor
  · intro e hp he
    rw [hat0 p e hp he]
    have : contraction fs xs K size e = sumKeys (K.map fun k => (k, size k))
        (fun e => fun ω => ((fs.zip xs).map fun fx => fx.2 (coord (fx.1.keys.map e)) ω).prod) e := by
      funext ω
      rw [sumKeys_apply]
      rfl
    rw [this, sumKeys_map]
    congr 1
    funext e
    rw [hi1 e]
    exact (prod_zip_left fs xs hl (fun f => f.first p e) _ fun x hx => hm1 x hx e).symm
  · intro r c hp hr hc
    rw [hat1 p r c hp hr hc]
    have : (fun ω => contraction fs xs K size r ω * contraction fs xs K size c ω) =
        sumKeys (K.map fun k => (k, size k)) (fun r => sumKeys (K.map fun k => (k, size k)) (fun c =>
          fun ω => ((fs.zip xs).map fun fx => fx.2 (coord (fx.1.keys.map r)) ω *
            fx.2 (coord (fx.1.keys.map c)) ω).prod) c) r := by
      funext ω
      rw [sumKeys_apply]
      unfold contraction
      rw [sumKeys_mul_const]
      congr 1
      funext r
      rw [sumKeys_const_mul, sumKeys_apply]
      congr 1
      funext c
      rw [← List.prod_map_mul]
    rw [this, sumKeys_map]
    congr 1
    funext r
    rw [sumKeys_map]
    congr 1
    funext c
    rw [hi2 r c]
    exact (prod_zip_left fs xs hl (fun f => f.second p r c) _ fun x hx => hm2 x hx r c).symm

/-! ## The Gaussian-gamma case -/

theorem scalar_broadcastsTo (a : α) (B : List Nat) : BroadcastsTo (scalarArr a).shape B :=
  ⟨by simp [scalarArr], fun k => .inl (by simp [scalarArr, axisLen])⟩

/-- **C18** (Gaussian-gamma inputs).  The third moment is the product of the third moments and the fourth
moment the sum of the fourth moments of the parents which are not constant. -/
theorem C18_gamma_moments (us : List (Bool × Arr α × Arr α)) (B : List Nat)
    (h2 : ∀ u ∈ us, BroadcastsTo u.2.1.shape B) (h3 : ∀ u ∈ us, BroadcastsTo u.2.2.shape B) :
    ∃ x2 x3, smGamma (us.map fun u => (u.1, u.2.1)) = .ok x2 ∧
      smLogGamma (us.map fun u => (u.1, u.2.2)) = .ok x3 ∧
      BroadcastsTo x2.shape B ∧ BroadcastsTo x3.shape B ∧
      (∀ c, x2.at c = ((us.filter fun u => !u.1).map fun u => u.2.1.at c).prod) ∧
      ∀ c, x3.at c = ((us.filter fun u => !u.1).map fun u => u.2.2.at c).sum := by
  have key2 : ∀ (us : List (Bool × Arr α × Arr α)) (x : Arr α), BroadcastsTo x.shape B →
      (∀ u ∈ us, BroadcastsTo u.2.1.shape B) →
      ∃ r, (us.map fun u => (u.1, u.2.1)).foldlM
          (fun x u => npMul x (if u.1 then scalarArr 1 else u.2)) x = Except.ok (ε := PyErr) r ∧
        BroadcastsTo r.shape B ∧
        ∀ c, r.at c = x.at c * ((us.filter fun u => !u.1).map fun u => u.2.1.at c).prod := by
    intro us
    induction us with
    | nil => intro x hx _; exact ⟨x, rfl, hx, fun c => by simp⟩
    | cons u us ih =>
      intro x hx h
      obtain ⟨r1, hr1, -, hb1, hat1⟩ := npMul_common (Y := if u.1 then scalarArr 1 else u.2.1) hx (by
        split
        · exact scalar_broadcastsTo 1 B
        · exact h u (by simp))
      obtain ⟨r, hr, hb, hat⟩ := ih r1 hb1 fun v hv => h v (by simp [hv])
      refine ⟨r, ?_, hb, ?_⟩
      · rw [List.map_cons, List.foldlM_cons]
        simp only
        rw [hr1]
        exact hr
      · intro c
        rw [hat, hat1]
        cases hu : u.1
        · simp [hu, mul_assoc]
        · simp [hu, scalarArr, Arr.at]
  have key3 : ∀ (us : List (Bool × Arr α × Arr α)) (x : Arr α), BroadcastsTo x.shape B →
      (∀ u ∈ us, BroadcastsTo u.2.2.shape B) →
      ∃ r, (us.map fun u => (u.1, u.2.2)).foldlM
          (fun x u => npAdd x (if u.1 then scalarArr 0 else u.2)) x = Except.ok (ε := PyErr) r ∧
        BroadcastsTo r.shape B ∧
        ∀ c, r.at c = x.at c + ((us.filter fun u => !u.1).map fun u => u.2.2.at c).sum := by
    intro us
    induction us with
    | nil => intro x hx _; exact ⟨x, rfl, hx, fun c => by simp⟩
    | cons u us ih =>
      intro x hx h
      obtain ⟨r1, hr1, -, hb1, hat1⟩ := npAdd_common (Y := if u.1 then scalarArr 0 else u.2.2) hx (by
        split
        · exact scalar_broadcastsTo 0 B
        · exact h u (by simp))
      obtain ⟨r, hr, hb, hat⟩ := ih r1 hb1 fun v hv => h v (by simp [hv])
      refine ⟨r, ?_, hb, ?_⟩
      · rw [List.map_cons, List.foldlM_cons]
        simp only
        rw [hr1]
        exact hr
      · intro c
        rw [hat, hat1]
        cases hu : u.1
        · simp [hu, add_assoc]
        · simp [hu, scalarArr, Arr.at]
  obtain ⟨x2, a1, a2, a3⟩ := key2 us (scalarArr 1) (scalar_broadcastsTo 1 B) h2
  obtain ⟨x3, b1, b2, b3⟩ := key3 us (scalarArr 0) (scalar_broadcastsTo 0 B) h3
  exact ⟨x2, x3, a1, b1, a2, b2, fun c => by rw [a3]; simp [scalarArr, Arr.at],
    fun c => by rw [b3]; simp [scalarArr, Arr.at]⟩

end

end Verif
