import Mathlib.Algebra.Order.Ring.Nat
import Mathlib.Algebra.BigOperators.Group.List.Basic
import Mathlib.Tactic.Common
import Verif.Model.BlockBanded

/-!
# C48: layout of the block-banded matrix
-/

namespace Verif

/-- Row (and column) at which block `n` starts. -/
def blockOffset {α : Type _} (D : List (Blk α)) (n : Nat) : Nat := ((D.take n).map (·.rows)).sum

/-- Admissible blocks: square diagonal blocks, super-diagonal blocks that fit between them. -/
structure BandedShapes {α : Type _} (D B : List (Blk α)) : Prop where
  count : B.length + 1 = D.length
  square : ∀ d ∈ D, d.rows = d.cols
  fits : ∀ n (h : n < B.length) (h1 : n < D.length) (h2 : n + 1 < D.length),
    B[n].rows = D[n].cols ∧ B[n].cols = D[n + 1].rows

theorem forM_unit_ok {β : Type _} (l : List β) (f : β → Except PyErr Unit) (p : β → Prop)
    (h : ∀ b, (p b → f b = .ok ()) ∧ (¬ p b → f b = .error .valueError)) :
    ((∀ b ∈ l, p b) → l.forM f = .ok ()) ∧ ((¬ ∀ b ∈ l, p b) → l.forM f = .error .valueError) := by
  induction l with
  | nil => exact ⟨fun _ => rfl, fun h => absurd (by simp) h⟩
  | cons a l ih =>
    constructor
    · intro hall
      show (f a >>= fun _ => l.forM f) = _
      rw [(h a).1 (hall a (by simp))]
      exact ih.1 fun b hb => hall b (by simp [hb])
    · intro hn
      show (f a >>= fun _ => l.forM f) = _
      by_cases ha : p a
      · rw [(h a).1 ha]
        apply ih.2
        intro hall
        apply hn
        intro b hb
        rcases List.mem_cons.1 hb with rfl | hb
        · exact ha
        · exact hall b hb
      · rw [(h a).2 ha]; rfl

theorem blockBandedCheck_iff {α : Type _} (D B : List (Blk α)) :
    (BandedShapes D B → blockBandedCheck D B = .ok ()) ∧
    (¬ BandedShapes D B → blockBandedCheck D B = .error .valueError) := by
  have hsq := forM_unit_ok D (fun d => if d.rows ≠ d.cols then throw PyErr.valueError else pure ())
    (fun d => d.rows = d.cols) (by
      intro d; constructor
      · intro h; rw [if_neg (not_not.2 h)]; rfl
      · intro h; rw [if_pos h]; rfl)
  have hfit := forM_unit_ok ((D.zip (D.drop 1)).zip B)
    (fun p => if p.2.rows ≠ p.1.1.cols ∨ p.2.cols ≠ p.1.2.rows then throw PyErr.valueError else pure ())
    (fun p => p.2.rows = p.1.1.cols ∧ p.2.cols = p.1.2.rows) (by
      intro p; constructor
      · intro h; rw [if_neg (by tauto)]; rfl
      · intro h; rw [if_pos (by tauto)]; rfl)
  have hfits_iff : B.length + 1 = D.length →
      ((∀ p ∈ (D.zip (D.drop 1)).zip B, p.2.rows = p.1.1.cols ∧ p.2.cols = p.1.2.rows) ↔
      ∀ n (h : n < B.length) (h1 : n < D.length) (h2 : n + 1 < D.length),
        B[n].rows = D[n].cols ∧ B[n].cols = D[n + 1].rows) := by
    intro hc
    constructor
    · intro h n hn h1 h2
      have hmem : ((D[n], D[n + 1]), B[n]) ∈ (D.zip (D.drop 1)).zip B := by
        rw [List.mem_iff_getElem]
        refine ⟨n, by simp; omega, ?_⟩
        simp [Nat.add_comm 1 n]
      exact h _ hmem
    · intro h p hp
      obtain ⟨n, hn, rfl⟩ := List.mem_iff_getElem.1 hp
      simp at hn
      have := h n (by omega) (by omega) (by omega)
      simp [Nat.add_comm 1 n]
      exact this
  constructor
  · intro h
    unfold blockBandedCheck
    rw [if_neg (not_not.2 h.count)]
    simp only [hsq.1 h.square, bind, Except.bind]
    exact hfit.1 ((hfits_iff h.count).2 h.fits)
  · intro h
    unfold blockBandedCheck
    by_cases hc : B.length + 1 = D.length
    · rw [if_neg (not_not.2 hc)]
      by_cases hs : ∀ d ∈ D, d.rows = d.cols
      · simp only [hsq.1 hs, bind, Except.bind]
        apply hfit.2
        intro hf
        exact h ⟨hc, hs, (hfits_iff hc).1 hf⟩
      · simp only [hsq.2 hs, bind, Except.bind]
    · rw [if_pos hc]; rfl

theorem blockBandedFill_outside {α : Type _} (D B : List (Blk α)) (k : Nat) (A : Nat → Nat → α)
    (p q : Nat) (h : p < k ∨ q < k) : blockBandedFill k D B A p q = A p q := by
  induction D generalizing k B A with
  | nil => cases B <;> rfl
  | cons d ds ih =>
    cases B with
    | nil =>
      simp only [blockBandedFill, writeBlock]
      rw [if_neg (by omega)]
    | cons b bs =>
      simp only [blockBandedFill]
      rw [ih _ _ _ (by omega)]
      simp only [writeBlock]
      rw [if_neg (by omega), if_neg (by omega), if_neg (by omega)]

theorem bandedShapes_tail {α : Type _} {d : Blk α} {ds : List (Blk α)} {b : Blk α}
    {bs : List (Blk α)} (h : BandedShapes (d :: ds) (b :: bs)) : BandedShapes ds bs := by
  refine ⟨by have := h.count; simpa using this, fun d hd => h.square d (by simp [hd]), ?_⟩
  intro n h0 h1 h2
  have := h.fits (n + 1) (by simpa using h0) (by simpa using h1) (by simpa using h2)
  simpa using this

theorem blockOffset_cons {α : Type _} (d : Blk α) (ds : List (Blk α)) (n : Nat) :
    blockOffset (d :: ds) (n + 1) = d.rows + blockOffset ds n := by
  simp [blockOffset]

theorem blockBandedFill_spec {α : Type _} [Zero α] (D B : List (Blk α)) (h : BandedShapes D B)
    (k : Nat) (A : Nat → Nat → α) (hA : ∀ p q, k ≤ p → k ≤ q → A p q = 0)
    (n m : Nat) (hn : n < D.length) (hm : m < D.length) (i j : Nat)
    (hi : i < D[n].rows) (hj : j < D[m].rows) :
    blockBandedFill k D B A (k + blockOffset D n + i) (k + blockOffset D m + j)
      = if n = m then D[n].get i j
        else if hnm : m = n + 1 then (B[n]'(by have := h.count; omega)).get i j
        else if hmn : n = m + 1 then (B[m]'(by have := h.count; omega)).get j i
        else 0 := by
  induction D generalizing k A B n m with
  | nil => simp at hn
  | cons d ds ih =>
    cases B with
    | nil =>
      have hc := h.count
      simp at hc
      subst hc
      simp at hn hm
      subst hn; subst hm
      have hsq := h.square d (by simp)
      simp only [List.getElem_cons_zero] at hi hj
      simp only [blockBandedFill, blockOffset, List.take_zero, List.map_nil, List.sum_nil,
        writeBlock, if_true, List.getElem_cons_zero]
      rw [if_pos (by omega)]
      congr 1 <;> omega
    | cons b bs =>
      have htail := bandedShapes_tail h
      have hsq := h.square d (by simp)
      have hlen : bs.length + 1 = ds.length := htail.count
      have hfit := h.fits 0 (by simp) (by simp) (by simp; omega)
      simp only [List.getElem_cons_zero, List.getElem_cons_succ, Nat.zero_add] at hfit
      have hb : b.rows = d.rows := by rw [hfit.1, hsq]
      set A' := writeBlock (writeBlock (writeBlock A k k d) k (k + b.rows) b) (k + b.rows) k b.T
        with hA'
      have hfill : blockBandedFill k (d :: ds) (b :: bs) A = blockBandedFill (k + b.rows) ds bs A' := rfl
      rw [hfill]
      have hA'0 : ∀ p q, k + b.rows ≤ p → k + b.rows ≤ q → A' p q = 0 := by
        intro p q hp hq
        simp only [hA', writeBlock, Blk.T]
        rw [if_neg (by omega), if_neg (by omega), if_neg (by omega)]
        exact hA p q (by omega) (by omega)
      have hoff0 : blockOffset (d :: ds) 0 = 0 := by simp [blockOffset]
      cases n with
      | succ n =>
        simp only [List.getElem_cons_succ] at hi
        rw [blockOffset_cons, ← hb]
        cases m with
        | succ m =>
          simp only [List.getElem_cons_succ] at hj
          rw [blockOffset_cons, ← hb]
          have := ih bs htail (k + b.rows) A' hA'0 n m (by simpa using hn) (by simpa using hm) hi hj
          rw [show k + (b.rows + blockOffset ds n) + i = k + b.rows + blockOffset ds n + i by omega,
            show k + (b.rows + blockOffset ds m) + j = k + b.rows + blockOffset ds m + j by omega, this]
          simp only [Nat.add_right_cancel_iff, List.getElem_cons_succ]
        | zero =>
          simp only [List.getElem_cons_zero] at hj
          rw [blockBandedFill_outside _ _ _ _ _ _ (by omega), hoff0]
          simp only [hA', writeBlock, Blk.T]
          by_cases hn0 : n = 0
          · subst hn0
            have : blockOffset ds 0 = 0 := by simp [blockOffset]
            rw [this, if_pos (by omega), if_neg (by omega), dif_neg (by omega), dif_pos rfl]
            simp only [List.getElem_cons_zero]
            congr 1 <;> omega
          · have hge : (ds[0]'(by omega)).rows ≤ blockOffset ds n := by
              obtain ⟨e, es, he⟩ : ∃ e es, ds = e :: es := by
                cases ds with
                | nil => simp at hlen
                | cons e es => exact ⟨e, es, rfl⟩
              subst he
              obtain ⟨n', rfl⟩ : ∃ n', n = n' + 1 := ⟨n - 1, by omega⟩
              rw [blockOffset_cons]; simp
            rw [if_neg (by omega), if_neg (by omega), if_neg (by omega), if_neg (by omega),
              dif_neg (by omega), dif_neg (by omega)]
            exact hA _ _ (by omega) (by omega)
      | zero =>
        simp only [List.getElem_cons_zero] at hi
        rw [blockBandedFill_outside _ _ _ _ _ _ (by rw [hoff0]; omega), hoff0]
        cases m with
        | zero =>
          simp only [List.getElem_cons_zero] at hj
          rw [hoff0]
          simp only [hA', writeBlock, Blk.T, if_true, List.getElem_cons_zero]
          rw [if_neg (by omega), if_neg (by omega), if_pos (by omega)]
          congr 1 <;> omega
        | succ m =>
          simp only [List.getElem_cons_succ] at hj
          rw [blockOffset_cons, ← hb]
          simp only [hA', writeBlock, Blk.T]
          by_cases hm0 : m = 0
          · subst hm0
            have : blockOffset ds 0 = 0 := by simp [blockOffset]
            rw [this, if_neg (by omega), if_pos (by omega), if_neg (by omega), dif_pos rfl]
            simp only [List.getElem_cons_zero]
            congr 1 <;> omega
          · have hge : (ds[0]'(by omega)).rows ≤ blockOffset ds m := by
              obtain ⟨e, es, he⟩ : ∃ e es, ds = e :: es := by
                cases ds with
                | nil => simp at hlen
                | cons e es => exact ⟨e, es, rfl⟩
              subst he
              obtain ⟨m', rfl⟩ : ∃ m', m = m' + 1 := ⟨m - 1, by omega⟩
              rw [blockOffset_cons]; simp
            rw [if_neg (by omega), if_neg (by omega), if_neg (by omega), if_neg (by omega),
              dif_neg (by omega), dif_neg (by omega)]
            exact hA _ _ (by omega) (by omega)

/-- `block_banded(D, B)` returns the matrix with `D[n]` at diagonal block `n`, `B[n]` at block
`(n, n+1)`, its transpose at `(n+1, n)` and zeros in all other blocks; its size is the sum of the
block sizes. -/
theorem C48_block_banded {α : Type _} [Zero α] (D B : List (Blk α)) (h : BandedShapes D B) :
    ∃ A, blockBanded D B = .ok A ∧ A.rows = (D.map (·.rows)).sum ∧ A.cols = A.rows ∧
      ∀ n m (hn : n < D.length) (hm : m < D.length) i j, i < D[n].rows → j < D[m].rows →
        A.get (blockOffset D n + i) (blockOffset D m + j)
          = if n = m then D[n].get i j
            else if hnm : m = n + 1 then (B[n]'(by have := h.count; omega)).get i j
            else if hmn : n = m + 1 then (B[m]'(by have := h.count; omega)).get j i
            else 0 := by
  refine ⟨_, by unfold blockBanded; rw [(blockBandedCheck_iff D B).1 h]; rfl, ?_, rfl, ?_⟩
  · show List.foldl _ _ _ = _
    rw [List.sum_eq_foldl]
  · intro n m hn hm i j hi hj
    have := blockBandedFill_spec D B h 0 (fun _ _ => 0) (fun _ _ _ _ => rfl) n m hn hm i j hi hj
    simpa using this

/-- Every row belongs to exactly one block, so the previous theorem determines all entries. -/
theorem C48_blocks_cover {α : Type _} (D : List (Blk α)) (p : Nat) (hp : p < (D.map (·.rows)).sum) :
    ∃ n, ∃ hn : n < D.length, ∃ i, i < D[n].rows ∧ p = blockOffset D n + i := by
  induction D generalizing p with
  | nil => simp at hp
  | cons d ds ih =>
    by_cases h : p < d.rows
    · exact ⟨0, by simp, p, h, by simp [blockOffset]⟩
    · obtain ⟨n, hn, i, hi, he⟩ := ih (p - d.rows) (by simp at hp; omega)
      exact ⟨n + 1, by simpa using hn, i, by simpa using hi, by rw [blockOffset_cons]; omega⟩

/-- Blocks that do not fit raise `ValueError`. -/
theorem C48_block_banded_rejects {α : Type _} [Zero α] (D B : List (Blk α))
    (h : ¬ BandedShapes D B) : blockBanded D B = .error .valueError := by
  unfold blockBanded; rw [(blockBandedCheck_iff D B).2 h]; rfl

/-- A non-trivial instance: blocks of sizes 2, 1, 3. -/
example : BandedShapes [(⟨2, 2, fun i j => i + j⟩ : Blk Nat), ⟨1, 1, fun _ _ => 7⟩, ⟨3, 3, fun i j => i * j⟩]
    [⟨2, 1, fun i _ => i + 10⟩, ⟨1, 3, fun _ j => j + 20⟩] where
  count := rfl
  square := by simp
  fits := by
    intro n h _ _
    have : n = 0 ∨ n = 1 := by simp at h; omega
    rcases this with rfl | rfl <;> simp

end Verif
