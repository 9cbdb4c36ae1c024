import Verif.Model.Support
import Verif.Props.Categorical
import Verif.Props.LogPdf
import Verif.Props.Shape
import Verif.Props.CholSolve
import Verif.Lemmas.Cholesky

/-!
# C62: observed values are accepted exactly if they lie in the support
-/

namespace Verif
open Spec

/-! ### Ranges of integer types -/

/-- All elements of the array are values of the type. -/
def InType (t : IntType) (x : Arr Int) : Prop := ∀ c, ValidIn x.shape c → t.lo ≤ x.get c ∧ x.get c < t.hi

theorem IntType.range_pos (t : IntType) : t.lo ≤ 0 ∧ 0 < t.hi := by
  unfold IntType.lo IntType.hi
  have h1 : (0 : Int) < 2 ^ (t.bits - 1) := by positivity
  have h2 : (0 : Int) < 2 ^ t.bits := by positivity
  cases t.signed <;> simp <;> omega

theorem IntType.wrap_of_lt {t : IntType} {n : Int} (h0 : t.lo ≤ n) (h1 : n < t.hi) : t.wrap n = n := by
  unfold IntType.wrap
  rw [Int.emod_eq_of_lt (by omega) (by omega)]
  omega

theorem IntType.wrap_hi (t : IntType) : t.wrap t.hi = t.lo := by
  unfold IntType.wrap
  rw [Int.emod_self]
  omega

theorem gammalnInt_succ (n : ℕ) : gammalnInt ((n : Int) + 1) = .fin (Real.log n.factorial) := by
  unfold gammalnInt
  rw [if_neg (by omega)]
  have := gammaln_nat n
  push_cast
  rw [this]

theorem gammalnInt_of_nonneg {n : Int} (h : 0 ≤ n) : gammalnInt (n + 1) = .fin (Real.log n.toNat.factorial) := by
  obtain ⟨m, rfl⟩ := Int.eq_ofNat_of_zero_le h
  exact gammalnInt_succ m

theorem npAnyOf_false {β : Type} {x : Arr β} {p : β → Bool} :
    npAnyOf x p = false ↔ ∀ c, ValidIn x.shape c → p (x.get c) = false := by
  rw [← Bool.not_eq_true, npAnyOf_iff]
  push Not
  simp only [ne_eq, Bool.not_eq_true]

/-! ### Poisson -/

/-- Integers are accepted exactly if none is negative; anything else is a `ValueError`. -/
theorem C62_poisson_accepts (t : IntType) (x : Arr Int) :
    (∃ r, poissonObserve (.int t x) = .ok r) ∧ (∀ c, ValidIn x.shape c → 0 ≤ x.get c) ∨
      poissonObserve (.int t x) = .error .valueError ∧ ∃ c, ValidIn x.shape c ∧ x.get c < 0 := by
  unfold poissonObserve Vals.ints
  dsimp only
  cases h : npAnyOf x (fun v => decide (v < 0))
  · left
    refine ⟨⟨_, rfl⟩, fun c hc => ?_⟩
    simpa using npAnyOf_false.1 h c hc
  · right
    obtain ⟨c, hc, h⟩ := npAnyOf_iff.1 h
    exact ⟨rfl, c, hc, by simpa using h⟩

/-- The moments are the counts and `f` is the logarithm of the base measure `1 / x!` unless `x` is the largest value of its
type. -/
theorem C62_poisson (t : IntType) (x : Arr Int) (hx : InType t x) (u : List (Arr Flt)) (f : Arr Flt)
    (h : poissonObserve (.int t x) = .ok (u, f)) :
    (∃ u0, u = [u0] ∧ u0.shape = x.shape ∧ ∀ c, u0.get c = .fin (x.get c)) ∧ f.shape = x.shape ∧
      ∀ c, ValidIn x.shape c →
        f.get c = if x.get c = t.hi - 1 then .negInf else .fin (Real.log (1 / (x.get c).toNat.factorial)) := by
  unfold poissonObserve Vals.ints at h
  dsimp only at h
  cases hn : npAnyOf x (fun v => decide (v < 0))
  · rw [hn] at h
    simp only [Bool.false_eq_true, if_false, Except.ok.injEq, Prod.mk.injEq] at h
    obtain ⟨rfl, rfl⟩ := h
    refine ⟨⟨_, rfl, rfl, fun c => rfl⟩, rfl, fun c hc => ?_⟩
    have h0 : 0 ≤ x.get c := by simpa using npAnyOf_false.1 hn c hc
    have ⟨h1, h2⟩ := hx c hc
    show -gammalnInt (t.wrap (x.get c + 1)) = _
    split_ifs with he
    · rw [he, show t.hi - 1 + 1 = t.hi by omega, IntType.wrap_hi, gammalnInt, if_pos t.range_pos.1]
      rfl
    · rw [IntType.wrap_of_lt (by omega) (by omega), gammalnInt_of_nonneg h0, one_div, Real.log_inv]
      rfl
  · rw [hn] at h
    simp at h

/-- Booleans count as zero and one. -/
theorem C62_poisson_bool (x : Arr Bool) : ∃ u0 f, poissonObserve (.bool x) = .ok ([u0], f) ∧ u0.shape = x.shape ∧
    f.shape = x.shape ∧ ∀ c, u0.get c = .fin (if x.get c then 1 else 0) ∧ f.get c = .fin 0 := by
  unfold poissonObserve Vals.ints
  dsimp only
  have hn : npAnyOf ({ shape := x.shape, get := fun c => if x.get c then 1 else 0 } : Arr Int)
      (fun v => decide (v < 0)) = false := by
    rw [npAnyOf_false]
    intro c _
    dsimp only
    split_ifs <;> rfl
  rw [hn]
  refine ⟨_, _, rfl, rfl, rfl, fun c => ⟨?_, ?_⟩⟩
  · show intFlt _ = _
    dsimp only
    unfold intFlt
    split_ifs <;> simp
  · show -gammalnInt ((if x.get c then 1 else 0) + 1) = _
    rw [gammalnInt_of_nonneg (by split_ifs <;> simp)]
    split_ifs <;> simp <;> exact congrArg Flt.fin neg_zero

/-- Floats are rejected, whatever their values. -/
theorem C62_poisson_float (x : Arr Flt) : poissonObserve (.float x) = .error .valueError := rfl

/-- NumPy's `uint8` -/
def uint8 : IntType := ⟨false, 8⟩
/-- NumPy's `int64` -/
def int64 : IntType := ⟨true, 64⟩

def vec2 {α : Type} (a b : α) : Arr α := { shape := [2], get := fun c => if c 0 = 0 then a else b }

theorem vec2_valid {c : Nat → Nat} (hc : ValidIn [2] c) : c 0 = 0 ∨ c 0 = 1 := by
  have := hc 0
  simp [axisLen] at this
  omega

theorem vec2_forall {α : Type} {a b : α} {p : α → Prop} (ha : p a) (hb : p b) (c : Nat → Nat) : p ((vec2 a b).get c) := by
  show p (if c 0 = 0 then a else b)
  split_ifs
  · exact ha
  · exact hb

theorem zero_valid (n : Nat) : ValidIn [n + 1] (fun _ => 0) := by
  intro k
  rcases k with _ | k <;> simp [axisLen]

example : InType int64 (vec2 3 4) :=
  fun c _ => ⟨vec2_forall (p := fun v => int64.lo ≤ v) (by decide) (by decide) c,
    vec2_forall (p := fun v => v < int64.hi) (by decide) (by decide) c⟩

/-- **A count in the support is observed with probability zero**: for counts of type `uint8` the count 255 is accepted but
`255 + 1` is 0 in that type, thus `f = -inf` and the lower bound is `-inf`. -/
theorem C62_poisson_refuted : InType uint8 (vec2 255 1) ∧
    ∃ u f, poissonObserve (.int uint8 (vec2 255 1)) = .ok (u, f) ∧ f.get (fun _ => 0) = .negInf := by
  have hx : InType uint8 (vec2 255 1) :=
    fun c _ => ⟨vec2_forall (p := fun v => uint8.lo ≤ v) (by decide) (by decide) c,
      vec2_forall (p := fun v => v < uint8.hi) (by decide) (by decide) c⟩
  refine ⟨hx, ?_⟩
  rcases C62_poisson_accepts uint8 (vec2 255 1) with ⟨⟨⟨u, f⟩, h⟩, -⟩ | ⟨-, c, -, h⟩
  · refine ⟨u, f, h, ?_⟩
    rw [(C62_poisson uint8 _ hx u f h).2.2 _ (zero_valid 1)]
    rfl
  · exact absurd (vec2_forall (p := fun v : Int => 0 ≤ v) (by decide) (by decide) c) (not_le.2 h)

/-- **Elements outside of the mask are checked too**: whatever the node and its state, an observation whose only observed
element is valid raises `ValueError` because of the element that is not observed. -/
theorem C62_masked_refuted : ∃ (x : Arr Int) (mask : Arr Bool),
    (∀ c, ValidIn x.shape c → mask.get c = true → 0 ≤ x.get c) ∧ (∃ c, ValidIn x.shape c ∧ mask.get c = true) ∧
    ∀ (N : ENode Flt) child parents s,
      nodeObserve N (poissonObserve (.int int64 x)) mask child parents s = (.error .valueError, s) := by
  refine ⟨vec2 (-1) 2, vec2 false true, ?_, ⟨fun k => if k = 0 then 1 else 0, ?_, rfl⟩, ?_⟩
  · intro c _ hm
    show (0 : Int) ≤ if c 0 = 0 then -1 else 2
    have : (if c 0 = 0 then false else true) = true := hm
    split_ifs at this ⊢
    decide
  · intro k
    rcases k with _ | k <;> simp [axisLen, vec2]
  · intro N child parents s
    rcases C62_poisson_accepts int64 (vec2 (-1) 2) with ⟨-, h⟩ | ⟨h, -⟩
    · exact absurd (h _ (zero_valid 1)) (by decide)
    · rw [h]
      rfl

/-- **Initial values are not checked**: `initialize_from_value` and constants given as parents use the moments class, which
accepts negative counts. -/
theorem C62_poisson_value_refuted : ∃ u0, poissonValue (.int int64 (vec2 (-1) 2)) = .ok [u0] ∧
    u0.get (fun _ => 0) = .fin (-1) := by
  refine ⟨_, rfl, ?_⟩
  show Flt.fin ((-1 : Int) : ℝ) = _
  norm_num

/-! ### Binomial and Bernoulli -/

theorem npMap2_ok {α β γ : Type _} {g : α → β → γ} {x : Arr α} {y : Arr β} {r : List Nat}
    (hr : IsBroadcast [x.shape, y.shape] r) :
    npMap2 g x y = .ok { shape := r, get := fun c => g (x.at c) (y.at c) } := by
  unfold npMap2
  rw [(broadcastedShape_ok _ _).2 hr]
  rfl

theorem isBroadcast_swap {a b r : List Nat} (h : IsBroadcast [a, b] r) : IsBroadcast [b, a] r :=
  isBroadcast_of_same_elements (fun s => by simp [or_comm]) h

theorem isBroadcast_self (r : List Nat) : IsBroadcast [r, r] r :=
  ⟨by simp, .inr ⟨r, by simp, rfl⟩, fun k s hs => .inr (by simp at hs; rw [hs]), fun k => .inr ⟨r, by simp, rfl⟩⟩

/-- What `compute_fixed_moments_and_f` of the binomial distribution returns. -/
theorem binomialObserve_eq {N x : Arr Int} {v : Vals} {r : List Nat} (hv : v.ints = some x)
    (hv1 : v.plusOne.shape = x.shape) (hr : IsBroadcast [x.shape, N.shape] r)
    (h0 : ∀ c, ValidIn x.shape c → 0 ≤ x.get c) (h1 : ∀ c, ValidIn r c → x.at c ≤ N.at c) :
    ∃ f, binomialObserve N v = .ok ([x.map intFlt], f) ∧ f.shape = r ∧ ∀ c, ValidIn r c →
      f.get c = gammalnInt (N.at c + 1) - gammalnInt (v.plusOne.at c) - gammalnInt (N.at c - x.at c + 1) := by
  unfold binomialObserve
  rw [hv]
  dsimp only
  have hn : npAnyOf x (fun v => decide (v < 0)) = false :=
    npAnyOf_false.2 fun c hc => by simpa using h0 c hc
  rw [hn, npMap2_ok hr]
  have hb : npAnyOf ({ shape := r, get := fun c => decide (x.at c > N.at c) } : Arr Bool) id = false :=
    npAnyOf_false.2 fun c hc => by simpa using h1 c hc
  have e1 := npMap2_ok (g := fun a b : Flt => a - b) (x := N.map fun n => gammalnInt (n + 1))
    (y := v.plusOne.map gammalnInt) (r := r) (by
      show IsBroadcast [N.shape, v.plusOne.shape] r
      rw [hv1]
      exact isBroadcast_swap hr)
  have e2 := npMap2_ok (g := fun n v : Int => gammalnInt (n - v + 1)) (isBroadcast_swap hr)
  simp only [Bool.false_eq_true, if_false, bind, Except.bind, hb, e1, e2]
  rw [npMap2_ok (r := r) (by exact isBroadcast_self r)]
  refine ⟨_, rfl, rfl, fun c hc => ?_⟩
  dsimp only
  rw [Arr.at_of_valid _ (by exact hc), Arr.at_of_valid _ (by exact hc)]
  rfl

/-- Integers are accepted exactly if all of them lie between zero and the number of trials; otherwise a `ValueError` is raised.
Bernoulli variables are the case of one trial. -/
theorem C62_binomial_accepts (N : Arr Int) (t : IntType) (x : Arr Int) (r : List Nat)
    (hr : IsBroadcast [x.shape, N.shape] r) :
    (∃ u, binomialObserve N (.int t x) = .ok u) ∧
        (∀ c, ValidIn x.shape c → 0 ≤ x.get c) ∧ (∀ c, ValidIn r c → x.at c ≤ N.at c) ∨
      binomialObserve N (.int t x) = .error .valueError ∧
        ((∃ c, ValidIn x.shape c ∧ x.get c < 0) ∨ ∃ c, ValidIn r c ∧ N.at c < x.at c) := by
  by_cases h0 : ∀ c, ValidIn x.shape c → 0 ≤ x.get c
  · by_cases h1 : ∀ c, ValidIn r c → x.at c ≤ N.at c
    · obtain ⟨f, hf, -⟩ := binomialObserve_eq (N := N) (v := .int t x) rfl rfl hr h0 h1
      exact .inl ⟨⟨_, hf⟩, h0, h1⟩
    · right
      push Not at h1
      refine ⟨?_, .inr h1⟩
      unfold binomialObserve Vals.ints
      dsimp only
      have hn : npAnyOf x (fun v => decide (v < 0)) = false :=
        npAnyOf_false.2 fun c hc => by simpa using h0 c hc
      have hb : npAnyOf ({ shape := r, get := fun c => decide (x.at c > N.at c) } : Arr Bool) id = true :=
        npAnyOf_iff.2 (h1.imp fun c hc => ⟨hc.1, by simpa using hc.2⟩)
      rw [hn, npMap2_ok hr]
      simp only [Bool.false_eq_true, if_false, bind, Except.bind, hb, if_true]
      rfl
  · right
    push Not at h0
    refine ⟨?_, .inl h0⟩
    unfold binomialObserve Vals.ints
    dsimp only
    rw [npAnyOf_iff.2 (h0.imp fun c hc => ⟨hc.1, by simpa using hc.2⟩)]
    rfl

/-- The moments are the counts and `f` is the logarithm of the number of ways to choose the successful trials (if `x + 1` is
a value of the type of the counts). -/
theorem C62_binomial (N : Arr Int) (t : IntType) (x : Arr Int) (hx : InType t x) (r : List Nat)
    (hr : IsBroadcast [x.shape, N.shape] r) (u : List (Arr Flt)) (f : Arr Flt)
    (h : binomialObserve N (.int t x) = .ok (u, f)) :
    (∃ u0, u = [u0] ∧ u0.shape = x.shape ∧ ∀ c, u0.get c = .fin (x.get c)) ∧ f.shape = r ∧
      ∀ c, ValidIn r c → f.get c = if x.at c = t.hi - 1 then .negInf
        else .fin (Real.log ((N.at c).toNat.choose (x.at c).toNat)) := by
  rcases C62_binomial_accepts N t x r hr with ⟨-, h0, h1⟩ | ⟨he, -⟩
  · obtain ⟨f', hf, hs, hc⟩ := binomialObserve_eq (N := N) (v := .int t x) rfl rfl hr h0 h1
    rw [hf] at h
    simp only [Except.ok.injEq, Prod.mk.injEq] at h
    obtain ⟨rfl, rfl⟩ := h
    refine ⟨⟨_, rfl, rfl, fun c => rfl⟩, hs, fun c hcv => ?_⟩
    have hv : ValidIn x.shape (restrict x.shape c) := by
      intro k
      unfold restrict
      split_ifs with hk
      · omega
      · rcases hr.fits k x.shape (by simp) with h | h
        · exact absurd h hk
        · rw [h]
          exact hcv k
    have h0' : 0 ≤ x.at c := h0 _ hv
    have ht : t.lo ≤ x.at c ∧ x.at c < t.hi := hx _ hv
    have h1' := h1 c hcv
    rw [hc c hcv, gammalnInt_of_nonneg (show 0 ≤ N.at c by omega), gammalnInt_of_nonneg (by omega)]
    show Flt.fin _ - gammalnInt (t.wrap (x.at c + 1)) - _ = _
    split_ifs with he
    · rw [he, show t.hi - 1 + 1 = t.hi by omega, IntType.wrap_hi, gammalnInt, if_pos t.range_pos.1]
      rfl
    · rw [IntType.wrap_of_lt (by omega) (by omega), gammalnInt_of_nonneg h0']
      have e1 : (N.at c - x.at c).toNat = (N.at c).toNat - (x.at c).toNat := by omega
      have e2 : (x.at c).toNat ≤ (N.at c).toNat := by omega
      rw [Nat.cast_choose ℝ e2, Real.log_div (by positivity) (by positivity), Real.log_mul (by positivity) (by positivity),
        e1]
      exact congrArg Flt.fin (by ring)
  · rw [he] at h
    cases h

/-- `r` trials with two plates: 2 of 3 and 0 of 5 -/
example : IsBroadcast [(vec2 (2 : Int) 0).shape, (vec2 (3 : Int) 5).shape] [2] := isBroadcast_self [2]

/-- **`initialize_from_value` and `initialize_from_random` of a binomial or Bernoulli node always raise** (`TypeError` for values
that do not exceed the number of trials), and constants are never accepted in the place of a binomial parent. -/
theorem C62_binomial_value_raises (N : Arr Int) (x : Vals) :
    binomialValue N x = .error .typeError ∨ binomialValue N x = .error .valueError := by
  unfold binomialValue
  have key : ∀ b : Except PyErr (Arr Bool), (∀ e, b = .error e → e = .valueError) →
      (b >>= fun big => (if npAnyOf big id then throw .valueError else throw .typeError : Except PyErr (List (Arr Flt))))
        = .error .typeError ∨
      (b >>= fun big => (if npAnyOf big id then throw .valueError else throw .typeError : Except PyErr (List (Arr Flt))))
        = .error .valueError := by
    intro b hb
    cases b with
    | error e => exact .inr (by rw [hb e rfl]; rfl)
    | ok b =>
      show (if npAnyOf b id then _ else _) = _ ∨ (if npAnyOf b id then _ else _) = _
      split_ifs
      · exact .inr rfl
      · exact .inl rfl
  have hm : ∀ {α β : Type} (g : α → β → Bool) (a : Arr α) (b : Arr β) (e : PyErr),
      npMap2 g a b = .error e → e = .valueError := by
    intro α β g a b e h
    unfold npMap2 at h
    cases hb : broadcastedShape [a.shape, b.shape] with
    | error e' =>
      rw [hb] at h
      cases h
      exact broadcastedShape_error hb
    | ok s =>
      rw [hb] at h
      cases h
  cases x <;> exact key _ (fun e he => hm _ _ _ e he)

theorem C62_binomial_initialize_raises (N : Arr Int) (x : Vals) (node : ENode Flt) (inf : Arr Flt) (s : EState Flt) :
    ∃ e, initFromValue node inf (binomialValue N x) s = (.error e, s) := by
  rcases C62_binomial_value_raises N x with h | h <;> rw [h] <;> exact ⟨_, rfl⟩

/-- For instance for one success in one trial. -/
theorem C62_bernoulli_initialize_refuted (node : ENode Flt) (inf : Arr Flt) (s : EState Flt) :
    (∃ r, binomialObserve { shape := [], get := fun _ => 1 } (.int int64 { shape := [], get := fun _ => 1 }) = .ok r) ∧
    initFromValue node inf (binomialValue { shape := [], get := fun _ => 1 }
      (.int int64 { shape := [], get := fun _ => 1 })) s = (.error .typeError, s) := by
  refine ⟨?_, rfl⟩
  rcases C62_binomial_accepts { shape := [], get := fun _ => 1 } int64 { shape := [], get := fun _ => 1 } []
    (isBroadcast_self []) with ⟨h, -⟩ | ⟨-, ⟨c, -, h⟩ | ⟨c, -, h⟩⟩
  · exact h
  · exact absurd h (show ¬ (1 : Int) < 0 by decide)
  · exact absurd h (lt_irrefl (1 : Int))

/-! ### Multinomial -/

theorem Flt.fin_add (a b : ℝ) : Flt.fin a + Flt.fin b = .fin (a + b) := rfl
theorem Flt.fin_sub (a b : ℝ) : Flt.fin a - Flt.fin b = .fin (a - b) := congrArg Flt.fin (sub_eq_add_neg a b).symm
theorem Flt.fin_mul (a b : ℝ) : Flt.fin a * Flt.fin b = .fin (a * b) := rfl

theorem Flt.sum_fin {ι : Type} (l : List ι) (g : ι → Flt) (h : ι → ℝ) (hg : ∀ i ∈ l, g i = .fin (h i)) :
    Flt.sum (l.map g) = .fin (l.map h).sum := by
  induction l with
  | nil => rfl
  | cons a l ih =>
    have h1 : Flt.sum ((a :: l).map g) = g a + Flt.sum (l.map g) := rfl
    rw [h1, ih fun i hi => hg i (by simp [hi]), hg a (by simp), Flt.fin_add]
    simp

theorem validIn_append_one {s : List Nat} {K : Nat} {c : Nat → Nat} :
    ValidIn (s ++ [K]) c ↔ c 0 < K ∧ ValidIn s (fun k => c (k + 1)) := by
  constructor
  · intro h
    refine ⟨?_, fun k => ?_⟩
    · have := h 0
      rwa [axisLen_append_one, if_pos rfl] at this
    · have := h (k + 1)
      rwa [axisLen_append_one, if_neg (by omega)] at this
  · rintro ⟨h0, h1⟩ k
    rw [axisLen_append_one]
    rcases k with _ | k
    · simpa using h0
    · simpa using h1 k

theorem validIn_atLast {s : List Nat} {K : Nat} {c : Nat → Nat} {t : Nat} (ht : t < K) (hc : ValidIn s c) :
    ValidIn (s ++ [K]) (atLast c t) :=
  validIn_append_one.2 ⟨ht, hc⟩

theorem validIn_restrict_of {s r : List Nat} {c : Nat → Nat} (h : ∀ k, axisLen s k = 1 ∨ axisLen s k = axisLen r k)
    (hc : ValidIn r c) : ValidIn s (restrict s c) := by
  intro k
  unfold restrict
  split_ifs with hk
  · omega
  · rcases h k with h | h
    · exact absurd h hk
    · rw [h]
      exact hc k

theorem lastAxis_eq {α : Type _} {x : Arr α} {s : List Nat} {K : Nat} (hs : x.shape = s ++ [K]) (c : Nat → Nat) :
    x.lastAxis c = (List.range K).map fun t => x.get (atLast c t) := by
  unfold Arr.lastAxis
  rw [hs, axisLen_append_one, if_pos rfl]

/-- The counts of one plate add up to the number of trials. -/
def TrialsMatch (N x : Arr Int) (s : List Nat) (K : Nat) (c : Nat → Nat) : Prop :=
  ∑ k ∈ Finset.range K, x.get (atLast (restrict s c) k) = N.at c

theorem multinomial_total {x : Arr Int} {s : List Nat} {K : Nat} (hs : x.shape = s ++ [K]) :
    ∃ T, npSumLastInt x = .ok T ∧ T.shape = s ∧
      ∀ c, T.at c = ∑ k ∈ Finset.range K, x.get (atLast (restrict s c) k) := by
  unfold npSumLastInt
  rw [if_neg (by rw [hs]; simp)]
  refine ⟨_, rfl, by rw [hs]; simp, fun c => ?_⟩
  show (x.lastAxis (restrict _ c)).sum = _
  rw [lastAxis_eq hs, hs, List.dropLast_concat]
  rfl

theorem multinomialObserve_eq {N x : Arr Int} {v : Vals} {s r : List Nat} {K : Nat} (hv : v.ints = some x)
    (hv1 : v.plusOne.shape = x.shape) (hs : x.shape = s ++ [K]) (hr : IsBroadcast [s, N.shape] r) :
    (∃ f, multinomialObserve N v = .ok ([x.map intFlt], f) ∧ f.shape = r ∧
        (∀ c, f.get c = gammalnInt (N.at c + 1) -
          Flt.sum ((List.range K).map fun k => gammalnInt (v.plusOne.get (atLast (restrict s c) k)))) ∧
        (∀ c, ValidIn x.shape c → 0 ≤ x.get c) ∧ ∀ c, ValidIn r c → TrialsMatch N x s K c) ∨
      multinomialObserve N v = .error .valueError ∧
        ((∃ c, ValidIn x.shape c ∧ x.get c < 0) ∨ ∃ c, ValidIn r c ∧ ¬ TrialsMatch N x s K c) := by
  unfold multinomialObserve
  rw [hv]
  dsimp only
  obtain ⟨T, hT, hTs, hTc⟩ := multinomial_total hs
  cases h0 : npAnyOf x (fun v => decide (v < 0))
  · have h0' : ∀ c, ValidIn x.shape c → 0 ≤ x.get c := fun c hc => by simpa using npAnyOf_false.1 h0 c hc
    rw [hT]
    simp only [Bool.false_eq_true, if_false, bind, Except.bind]
    rw [npMap2_ok (r := r) (by rw [hTs]; exact hr)]
    dsimp only
    cases h1 : npAnyOf ({ shape := r, get := fun c => decide (T.at c ≠ N.at c) } : Arr Bool) id
    · left
      have h1' : ∀ c, ValidIn r c → TrialsMatch N x s K c := by
        intro c hc
        have := npAnyOf_false.1 h1 c hc
        rw [TrialsMatch, ← hTc]
        simpa using this
      simp only [Bool.false_eq_true, if_false]
      have hv2 : (v.plusOne.map gammalnInt).shape = s ++ [K] := hv1.trans hs
      rw [npMap2_ok (r := r) (by
        show IsBroadcast [N.shape, (v.plusOne.map gammalnInt).shape.dropLast] r
        rw [hv2, List.dropLast_concat]
        exact isBroadcast_swap hr)]
      refine ⟨_, rfl, rfl, fun c => ?_, h0', h1'⟩
      show gammalnInt (N.at c + 1) - Flt.sum ((v.plusOne.map gammalnInt).lastAxis (restrict _ c)) = _
      have hd : (npSumLastFlt (v.plusOne.map gammalnInt)).shape = s := by
        show (v.plusOne.map gammalnInt).shape.dropLast = s
        rw [hv2, List.dropLast_concat]
      rw [lastAxis_eq hv2, hd]
      rfl
    · right
      simp only [if_true]
      refine ⟨rfl, .inr ?_⟩
      obtain ⟨c, hc, h⟩ := npAnyOf_iff.1 h1
      refine ⟨c, hc, ?_⟩
      rw [TrialsMatch, ← hTc]
      simpa using h
  · right
    obtain ⟨c, hc, h⟩ := npAnyOf_iff.1 h0
    exact ⟨rfl, .inl ⟨c, hc, by simpa using h⟩⟩

/-- Counts are accepted exactly if none is negative and they add up to the number of trials in each plate. -/
theorem C62_multinomial_accepts (N : Arr Int) (t : IntType) (x : Arr Int) (s r : List Nat) (K : Nat)
    (hs : x.shape = s ++ [K]) (hr : IsBroadcast [s, N.shape] r) :
    (∃ u, multinomialObserve N (.int t x) = .ok u) ∧
        (∀ c, ValidIn x.shape c → 0 ≤ x.get c) ∧ (∀ c, ValidIn r c → TrialsMatch N x s K c) ∨
      multinomialObserve N (.int t x) = .error .valueError ∧
        ((∃ c, ValidIn x.shape c ∧ x.get c < 0) ∨ ∃ c, ValidIn r c ∧ ¬ TrialsMatch N x s K c) := by
  rcases multinomialObserve_eq (v := .int t x) rfl rfl hs hr with ⟨f, h, -, -, h0, h1⟩ | h
  · exact .inl ⟨⟨_, h⟩, h0, h1⟩
  · exact .inr h

/-- The moments are the counts and `f` is the logarithm of the multinomial coefficient (if the counts incremented by one are
values of their type). -/
theorem C62_multinomial (N : Arr Int) (t : IntType) (x : Arr Int) (s r : List Nat) (K : Nat)
    (hs : x.shape = s ++ [K]) (hr : IsBroadcast [s, N.shape] r)
    (hx : ∀ c, ValidIn x.shape c → x.get c + 1 < t.hi) (u : List (Arr Flt)) (f : Arr Flt)
    (h : multinomialObserve N (.int t x) = .ok (u, f)) :
    (∃ u0, u = [u0] ∧ u0.shape = x.shape ∧ ∀ c, u0.get c = .fin (x.get c)) ∧ f.shape = r ∧
      ∀ c, ValidIn r c → f.get c = .fin (Real.log ((N.at c).toNat.factorial /
        ∏ k ∈ Finset.range K, ((x.get (atLast (restrict s c) k)).toNat.factorial : ℝ))) := by
  rcases multinomialObserve_eq (v := .int t x) rfl rfl hs hr with ⟨f', h', hfs, hf, h0, h1⟩ | ⟨he, -⟩
  · rw [h'] at h
    simp only [Except.ok.injEq, Prod.mk.injEq] at h
    obtain ⟨rfl, rfl⟩ := h
    refine ⟨⟨_, rfl, rfl, fun c => rfl⟩, hfs, fun c hc => ?_⟩
    have hv : ∀ k ∈ Finset.range K, ValidIn x.shape (atLast (restrict s c) k) := by
      intro k hk
      rw [hs]
      exact validIn_atLast (Finset.mem_range.1 hk) (validIn_restrict_of (fun k => hr.fits k s (by simp)) hc)
    have hN : 0 ≤ N.at c := by
      rw [← h1 c hc]
      exact Finset.sum_nonneg fun k hk => h0 _ (hv k hk)
    rw [hf c, gammalnInt_of_nonneg hN, Flt.sum_fin (List.range K) _
      (fun k => Real.log (x.get (atLast (restrict s c) k)).toNat.factorial), Flt.fin_sub,
      Real.log_div (by positivity) (Finset.prod_ne_zero_iff.2 fun k _ => by positivity),
      Real.log_prod (fun k _ => by positivity)]
    · rfl
    · intro k hk
      have hk' := hv k (by simpa using hk)
      show gammalnInt (t.wrap (x.get _ + 1)) = _
      rw [IntType.wrap_of_lt (by have := h0 _ hk'; have := t.range_pos; omega) (hx _ hk'), gammalnInt_of_nonneg (h0 _ hk')]
  · rw [he] at h
    cases h

/-- Counts 1 and 2 in three trials -/
example : IsBroadcast [([] : List Nat), ({ shape := [], get := fun _ => 3 } : Arr Int).shape] [] ∧
    TrialsMatch { shape := [], get := fun _ => 3 } (vec2 1 2) [] 2 (fun _ => 0) :=
  ⟨isBroadcast_self [], by unfold TrialsMatch; decide⟩

/-- **Initial values need not add up to the number of trials.** -/
theorem C62_multinomial_value_refuted :
    multinomialObserve { shape := [], get := fun _ => 5 } (.int int64 (vec2 1 2)) = .error .valueError ∧
    ∃ u0, multinomialValue (.int int64 (vec2 1 2)) = .ok [u0] := by
  refine ⟨?_, _, rfl⟩
  rcases C62_multinomial_accepts { shape := [], get := fun _ => 5 } int64 (vec2 1 2) [] [] 2 rfl
    (isBroadcast_self []) with ⟨-, -, h⟩ | ⟨h, -⟩
  · exact absurd (h (fun _ => 0) (fun k => by simp [axisLen])) (by unfold TrialsMatch; decide)
  · exact h

/-! ### Gamma -/

/-- A float in the closed or open range of the positive numbers -/
theorem C62_gamma_accepts (x : Arr Flt) :
    (∃ u, gammaObserve x = .ok u) ↔ ∀ c, ValidIn x.shape c →
      x.get c = .nan ∨ x.get c = .posInf ∨ ∃ r : ℝ, x.get c = .fin r ∧ 0 ≤ r := by
  unfold gammaObserve
  cases h : npAnyOf x fun v => v.lt 0
  · refine ⟨fun _ c hc => ?_, fun _ => ⟨_, rfl⟩⟩
    have := npAnyOf_false.1 h c hc
    cases hv : x.get c with
    | nan => exact .inl rfl
    | posInf => exact .inr (.inl rfl)
    | negInf => rw [hv] at this; simp [Flt.lt] at this
    | fin r => rw [hv] at this; exact .inr (.inr ⟨r, rfl, by simpa [Flt.lt] using this⟩)
  · refine ⟨fun ⟨u, hu⟩ => by simp at hu, fun h' => ?_⟩
    obtain ⟨c, hc, hlt⟩ := npAnyOf_iff.1 h
    rcases h' c hc with e | e | ⟨r, e, hr⟩ <;> rw [e] at hlt <;> simp [Flt.lt] at hlt
    linarith

/-- Positive numbers give the moments `x`, `log x` and `f = -log x`. -/
theorem C62_gamma (x : Arr Flt) (q : (Nat → Nat) → ℝ)
    (hx : ∀ c, ValidIn x.shape c → x.get c = .fin (q c) ∧ 0 < q c) :
    ∃ u0 u1 f, gammaObserve x = .ok ([u0, u1], f) ∧ ∀ c, ValidIn x.shape c →
      u0.get c = .fin (gammaFixed (q c) 0) ∧ u1.get c = .fin (gammaFixed (q c) 1) ∧ f.get c = .fin (gammaF (q c)) := by
  unfold gammaObserve
  have h : npAnyOf x (fun v => v.lt 0) = false := npAnyOf_false.2 fun c hc => by
    rw [(hx c hc).1]
    simp [Flt.lt, (hx c hc).2.le]
  rw [h]
  refine ⟨_, _, _, rfl, fun c hc => ?_⟩
  have hl : (x.get c).log = .fin (Real.log (q c)) := by
    rw [(hx c hc).1]
    simp [Flt.log, (hx c hc).2.le, (hx c hc).2.ne']
  refine ⟨(hx c hc).1, hl, ?_⟩
  show -(x.get c).log = _
  rw [hl]
  rfl

/-- **Zero is accepted** and gives infinite moments: the log-density is NaN for every shape `a > 0`, also for `a = 1`, when the
density at zero is the rate. -/
theorem C62_gamma_zero_refuted (a b : ℝ) (ha : 0 < a) (g : ℝ) :
    ∃ u0 u1 f, gammaObserve { shape := [], get := fun _ => .fin 0 } = .ok ([u0, u1], f) ∧
      u1.get (fun _ => 0) = .negInf ∧ f.get (fun _ => 0) = .posInf ∧
      fltLogpdf [[.fin (-b)], [.fin a]] [[u0.get fun _ => 0], [u1.get fun _ => 0]] (.fin g) (f.get fun _ => 0) = .nan := by
  have h : npAnyOf ({ shape := [], get := fun _ => .fin 0 } : Arr Flt) (fun v => v.lt 0) = false :=
    npAnyOf_false.2 fun c _ => by simp [Flt.lt]
  have hl : (Flt.fin 0).log = .negInf := by simp [Flt.log]
  unfold gammaObserve
  rw [h]
  refine ⟨_, _, _, rfl, hl, ?_, ?_⟩
  · show -(Flt.fin 0).log = _
    rw [hl]
    rfl
  · show fltLogpdf _ [[Flt.fin 0], [(Flt.fin 0).log]] _ (-(Flt.fin 0).log) = _
    rw [hl]
    have hm : Flt.fin a * Flt.negInf = .negInf := by
      show Flt.mulInf a false = _
      simp [Flt.mulInf, ha.ne', ha]
    simp only [fltLogpdf, List.zip_cons_cons, List.zip_nil_right, List.foldl_cons, List.foldl_nil, List.zipWith_cons_cons,
      List.zipWith_nil_right, Flt.sum, List.foldr_cons, List.foldr_nil, hm, Flt.fin_mul, Flt.fin_add]
    rfl

/-- **NaN is accepted** as an observed value. -/
theorem C62_gamma_nan_refuted : ∃ u0 u1 f, gammaObserve { shape := [], get := fun _ => .nan } = .ok ([u0, u1], f) ∧
    u0.get (fun _ => 0) = .nan ∧ f.get (fun _ => 0) = .nan := by
  have h : npAnyOf ({ shape := [], get := fun _ => .nan } : Arr Flt) (fun v => v.lt 0) = false :=
    npAnyOf_false.2 fun c _ => rfl
  unfold gammaObserve
  rw [h]
  exact ⟨_, _, _, rfl, rfl, rfl⟩

/-! ### Dirichlet and beta -/

theorem Flt.sum_eq_fin {l : List Flt} {a : ℝ} (h : Flt.sum l = .fin a) : ∀ v ∈ l, ∃ r, v = .fin r := by
  induction l generalizing a with
  | nil => simp
  | cons b l ih =>
    have h1 : b + Flt.sum l = .fin a := h
    cases hb : b <;> cases hl : Flt.sum l <;> rw [hb, hl] at h1 <;> first | cases h1 | skip
    intro v hv
    rcases List.mem_cons.1 hv with rfl | hv
    · exact ⟨_, rfl⟩
    · exact ih hl v hv

/-- How far the sum of the probabilities may be from one: the tolerances of `np.allclose` -/
noncomputable def sumTol : ℝ := 1 / 10 ^ 8 + 1 / 10 ^ 5

/-- Probability vectors are accepted exactly if all elements are numbers in the closed unit interval and the sums are one up to the
tolerance; in particular NaN and infinities are rejected. -/
theorem C62_dirichlet_accepts (p : Arr Flt) (s : List Nat) (K : Nat) (hs : p.shape = s ++ [K]) :
    (∃ u, dirichletObserve p = .ok u) ↔ ∃ q : (Nat → Nat) → ℝ,
      (∀ c, ValidIn s c → ∀ k < K, p.get (atLast c k) = .fin (q (atLast c k)) ∧
        0 ≤ q (atLast c k) ∧ q (atLast c k) ≤ 1) ∧
      ∀ c, ValidIn s c → |∑ k ∈ Finset.range K, q (atLast c k) - 1| ≤ sumTol := by
  have hval : ∀ c, ValidIn p.shape c ↔ ∃ d k, ValidIn s d ∧ k < K ∧ c = atLast d k := by
    intro c
    rw [hs, validIn_append_one]
    constructor
    · rintro ⟨h0, h1⟩
      exact ⟨_, _, h1, h0, by funext k; rcases k with _ | k <;> rfl⟩
    · rintro ⟨d, k, hd, hk, rfl⟩
      exact ⟨hk, hd⟩
  have hsum : ∀ c, (npSumLastFlt p).get c = Flt.sum ((List.range K).map fun k => p.get (atLast c k)) := by
    intro c
    show Flt.sum (p.lastAxis c) = _
    rw [lastAxis_eq hs]
  have hsh : (npSumLastFlt p).shape = s := by
    show p.shape.dropLast = s
    rw [hs, List.dropLast_concat]
  unfold dirichletObserve
  rw [if_neg (by rw [hs]; simp)]
  constructor
  · rintro ⟨u, hu⟩
    split_ifs at hu with h1 h2
    rw [Bool.not_eq_true, Bool.or_eq_false_iff, npAnyOf_false, npAnyOf_false] at h1
    rw [Bool.not_eq_true, npAnyOf_false, hsh] at h2
    have hfin : ∀ c, ValidIn s c → ∃ a, Flt.sum ((List.range K).map fun k => p.get (atLast c k)) = .fin a ∧
        |a - 1| ≤ sumTol := by
      intro c hc
      have := h2 c hc
      rw [hsum] at this
      cases hv : Flt.sum ((List.range K).map fun k => p.get (atLast c k)) with
      | fin a =>
        rw [hv] at this
        refine ⟨a, rfl, ?_⟩
        simpa [Flt.isClose1, sumTol] using this
      | nan => rw [hv] at this; simp [Flt.isClose1] at this
      | posInf => rw [hv] at this; simp [Flt.isClose1] at this
      | negInf => rw [hv] at this; simp [Flt.isClose1] at this
    have hq : ∀ c, ValidIn s c → ∀ k < K, p.get (atLast c k) =
        .fin (match p.get (atLast c k) with | .fin r => r | _ => 0) := by
      intro c hc k hk
      obtain ⟨a, ha, -⟩ := hfin c hc
      obtain ⟨r, hr⟩ := Flt.sum_eq_fin ha (p.get (atLast c k)) (List.mem_map.2 ⟨k, List.mem_range.2 hk, rfl⟩)
      rw [hr]
    refine ⟨fun c => match p.get c with | .fin r => r | _ => 0, fun c hc k hk => ⟨hq c hc k hk, ?_, ?_⟩, fun c hc => ?_⟩
    · have hv := h1.1 _ ((hval _).2 ⟨c, k, hc, hk, rfl⟩)
      rw [hq c hc k hk] at hv
      simpa [Flt.lt] using hv
    · have hv := h1.2 _ ((hval _).2 ⟨c, k, hc, hk, rfl⟩)
      rw [hq c hc k hk] at hv
      simpa [Flt.gt] using hv
    · obtain ⟨a, ha, hb⟩ := hfin c hc
      rw [Flt.sum_fin _ _ (fun k => match p.get (atLast c k) with | .fin r => r | _ => 0)
        (fun k hk => hq c hc k (List.mem_range.1 hk))] at ha
      cases ha
      exact hb
  · rintro ⟨q, hq, hs1⟩
    have h1 : (npAnyOf p (fun v => v.lt 0) || npAnyOf p fun v => v.gt 1) = false := by
      rw [Bool.or_eq_false_iff, npAnyOf_false, npAnyOf_false]
      constructor <;> intro c hc <;> obtain ⟨d, k, hd, hk, rfl⟩ := (hval c).1 hc <;> rw [(hq d hd k hk).1]
      · simpa [Flt.lt] using (hq d hd k hk).2.1
      · simpa [Flt.gt] using (hq d hd k hk).2.2
    have h2 : npAnyOf (npSumLastFlt p) (fun s => !s.isClose1) = false := by
      rw [npAnyOf_false, hsh]
      intro c hc
      rw [hsum, Flt.sum_fin _ _ (fun k => q (atLast c k)) fun k hk => (hq c hc k (List.mem_range.1 hk)).1]
      have : |((List.range K).map fun k => q (atLast c k)).sum - 1| ≤ 1 / 10 ^ 8 + 1 / 10 ^ 5 := hs1 c hc
      show (!decide (|_ - 1| ≤ _)) = false
      rw [decide_eq_true this]
      rfl
    rw [h1, h2]
    exact ⟨_, rfl⟩

/-- Positive probabilities that are accepted give the moments and `f` of the normalised vector. -/
theorem C62_dirichlet (p : Arr Flt) (s : List Nat) (K : Nat) (hs : p.shape = s ++ [K]) (q : (Nat → Nat) → Fin K → ℝ)
    (hq : ∀ c, ValidIn s c → ∀ k : Fin K, p.get (atLast c k) = .fin (q c k) ∧ 0 < q c k)
    (u : List (Arr Flt)) (f : Arr Flt) (h : dirichletObserve p = .ok (u, f)) :
    ∃ u0, u = [u0] ∧ u0.shape = p.shape ∧ f.shape = s ∧ ∀ c, ValidIn s c →
      (∀ k : Fin K, u0.get (atLast c k) = .fin (dirichletFixed (q c) k)) ∧ f.get c = .fin (dirichletF (q c)) := by
  unfold dirichletObserve at h
  split_ifs at h
  simp only [Except.ok.injEq, Prod.mk.injEq] at h
  obtain ⟨rfl, rfl⟩ := h
  have hu : ∀ c, ValidIn s c → ∀ k : Fin K, (logNormalised p).get (atLast c k) = .fin (dirichletFixed (q c) k) := by
    intro c hc k
    show ((p.get (atLast c k)).divBy (Flt.sum (p.lastAxis c))).log = _
    have hsum : Flt.sum (p.lastAxis c) = .fin (∑ j, q c j) := by
      rw [lastAxis_eq hs, Flt.sum_fin _ _ (fun j => if hj : j < K then q c ⟨j, hj⟩ else 0) fun j hj => by
        have hj' := List.mem_range.1 hj
        rw [dif_pos hj']
        exact (hq c hc ⟨j, hj'⟩).1]
      congr 1
      rw [Fin.sum_univ_eq_sum_range (fun j => if hj : j < K then q c ⟨j, hj⟩ else 0) K |>.symm.trans
        (Finset.sum_congr rfl fun j _ => dif_pos j.2) |>.symm]
      rfl
    have hpos : 0 < ∑ j, q c j := Finset.sum_pos (fun j _ => (hq c hc j).2) ⟨k, Finset.mem_univ _⟩
    rw [hsum, (hq c hc k).1]
    have hd := div_pos (hq c hc k).2 hpos
    simp [Flt.divBy, hpos.ne', Flt.log, hd.ne', hd.le, dirichletFixed]
  refine ⟨_, rfl, rfl, ?_, fun c hc => ⟨hu c hc, ?_⟩⟩
  · show p.shape.dropLast = s
    rw [hs, List.dropLast_concat]
  · show -Flt.sum ((logNormalised p).lastAxis c) = _
    rw [lastAxis_eq (show (logNormalised p).shape = s ++ [K] from hs),
      Flt.sum_fin _ _ (fun j => if hj : j < K then dirichletFixed (q c) ⟨j, hj⟩ else 0) fun j hj => by
        have hj' := List.mem_range.1 hj
        rw [dif_pos hj']
        exact hu c hc ⟨j, hj'⟩]
    show Flt.fin (-_) = _
    congr 1
    rw [dirichletF, Fin.sum_univ_eq_sum_range (fun j => if hj : j < K then dirichletFixed (q c) ⟨j, hj⟩ else 0) K
      |>.symm.trans (Finset.sum_congr rfl fun j _ => dif_pos j.2) |>.symm]
    rfl

/-- **Zero probabilities are accepted**: the vector (0, 1) gives infinite moments and the log-density under the uniform
distribution (all concentrations one, density one) is NaN. -/
theorem C62_dirichlet_zero_refuted : ∃ u0 f, dirichletObserve (vec2 (.fin 0) (.fin 1)) = .ok ([u0], f) ∧
    u0.get (atLast (fun _ => 0) 0) = .negInf ∧ f.get (fun _ => 0) = .posInf ∧
    fltLogpdf [[.fin 1, .fin 1]] [[u0.get (atLast (fun _ => 0) 0), u0.get (atLast (fun _ => 0) 1)]] (.fin 0)
      (f.get fun _ => 0) = .nan := by
  obtain ⟨u, hu⟩ := (C62_dirichlet_accepts (vec2 (.fin 0) (.fin 1)) [] 2 rfl).2
    ⟨fun c => if c 0 = 0 then 0 else 1, fun c _ k hk => by
      rcases (show k = 0 ∨ k = 1 by omega) with rfl | rfl <;> simp [atLast, vec2], fun c _ => by
      rw [Finset.sum_range_succ, Finset.sum_range_one]
      simp [atLast, sumTol]
      positivity⟩
  have hv := hu
  unfold dirichletObserve at hv
  split_ifs at hv
  simp only [Except.ok.injEq] at hv
  subst hv
  have hL : (vec2 (Flt.fin 0) (Flt.fin 1)).lastAxis (fun _ => 0) = [.fin 0, .fin 1] := rfl
  have hS : Flt.sum [Flt.fin 0, .fin 1] = .fin 1 := by
    simp only [Flt.sum, List.foldr_cons, List.foldr_nil, Flt.fin_add]
    norm_num
  have h0 : (logNormalised (vec2 (.fin 0) (.fin 1))).get (atLast (fun _ => 0) 0) = .negInf := by
    show ((Flt.fin 0).divBy (Flt.sum ((vec2 (Flt.fin 0) (Flt.fin 1)).lastAxis fun _ => 0))).log = _
    rw [hL, hS]
    simp [Flt.divBy, Flt.log]
  have h1 : (logNormalised (vec2 (.fin 0) (.fin 1))).get (atLast (fun _ => 0) 1) = .fin 0 := by
    show ((Flt.fin 1).divBy (Flt.sum ((vec2 (Flt.fin 0) (Flt.fin 1)).lastAxis fun _ => 0))).log = _
    rw [hL, hS]
    simp [Flt.divBy, Flt.log]
  have hf : ((npSumLastFlt (logNormalised (vec2 (.fin 0) (.fin 1)))).map fun v => -v).get (fun _ => 0) = .posInf := by
    show -Flt.sum [(logNormalised (vec2 (.fin 0) (.fin 1))).get (atLast (fun _ => 0) 0),
      (logNormalised (vec2 (.fin 0) (.fin 1))).get (atLast (fun _ => 0) 1)] = _
    rw [h0, h1]
    rfl
  refine ⟨_, _, hu, h0, hf, ?_⟩
  rw [h0, h1, hf]
  have hm : Flt.fin 1 * Flt.negInf = .negInf := by
    show Flt.mulInf 1 false = _
    simp [Flt.mulInf]
  simp only [fltLogpdf, List.zip_cons_cons, List.zip_nil_right, List.foldl_cons, List.foldl_nil, List.zipWith_cons_cons,
    List.zipWith_nil_right, Flt.sum, List.foldr_cons, List.foldr_nil, hm, Flt.fin_mul, Flt.fin_add]
  rfl

/-- Values for a beta variable are accepted exactly if they are numbers in the closed unit interval. -/
theorem C62_beta_accepts (p : Arr Flt) : (∃ u, betaObserve p = .ok u) ↔
    ∀ c, ValidIn p.shape c → ∃ r : ℝ, p.get c = .fin r ∧ 0 ≤ r ∧ r ≤ 1 := by
  unfold betaObserve
  rw [C62_dirichlet_accepts (betaPair p) p.shape 2 rfl]
  have e0 : ∀ c, (betaPair p).get (atLast c 0) = p.get c * .fin 1 + .fin 0 := fun c => rfl
  have e1 : ∀ c, (betaPair p).get (atLast c 1) = p.get c * .fin (-1) + .fin 1 := fun c => rfl
  constructor
  · rintro ⟨q, hq, -⟩ c hc
    obtain ⟨h, h0, h1⟩ := hq c hc 0 (by norm_num)
    rw [e0] at h
    cases hv : p.get c with
    | fin r =>
      rw [hv, Flt.fin_mul, Flt.fin_add, mul_one, add_zero] at h
      cases h
      exact ⟨_, rfl, h0, h1⟩
    | nan => rw [hv] at h; cases h
    | posInf =>
      rw [hv, show Flt.posInf * Flt.fin 1 = .posInf by show Flt.mulInf 1 true = _; simp [Flt.mulInf]] at h
      cases h
    | negInf =>
      rw [hv, show Flt.negInf * Flt.fin 1 = .negInf by show Flt.mulInf 1 false = _; simp [Flt.mulInf]] at h
      cases h
  · intro h
    choose! r hr using h
    refine ⟨fun c => if c 0 = 0 then r (fun k => c (k + 1)) else 1 - r (fun k => c (k + 1)), fun c hc k hk => ?_,
      fun c hc => ?_⟩
    · obtain ⟨hv, h0, h1⟩ := hr c hc
      rcases (show k = 0 ∨ k = 1 by omega) with rfl | rfl
      · rw [e0, hv, Flt.fin_mul, Flt.fin_add, mul_one, add_zero]
        exact ⟨rfl, h0, h1⟩
      · rw [e1, hv, Flt.fin_mul, Flt.fin_add]
        refine ⟨congrArg Flt.fin (show r c * -1 + 1 = 1 - r c by ring), ?_, ?_⟩
        · show 0 ≤ 1 - r c
          linarith
        · show 1 - r c ≤ 1
          linarith
    · rw [Finset.sum_range_succ, Finset.sum_range_one]
      show |r c + (1 - r c) - 1| ≤ _
      rw [show r c + (1 - r c) - 1 = 0 by ring, abs_zero, sumTol]
      positivity

/-! ### Wishart -/

/-- A symmetric matrix is accepted exactly if it is positive definite, and gives the moments `Λ`, `log |Λ|` and
`f = -(k+1)/2 log |Λ|`. -/
theorem C62_wishart {D : ℕ} (Λ : Matrix (Fin D) (Fin D) ℝ) (h : Λ.IsSymm) :
    Λ.PosDef ∧ wishartObserve Λ = .ok ((Λ, Real.log Λ.det), -((D : ℝ) + 1) / 2 * Real.log Λ.det) ∨
      ¬ Λ.PosDef ∧ wishartObserve Λ = .error .exception := by
  unfold wishartObserve
  rcases chol_spec h with ⟨hp, U, hU, hc⟩ | ⟨hp, he⟩
  · left
    rw [hU]
    refine ⟨hp, ?_⟩
    rw [← hc.logdet]
    rfl
  · right
    rw [he]
    exact ⟨hp, rfl⟩

theorem chol_fromUpper {D : ℕ} (C : Matrix (Fin D) (Fin D) ℝ) : chol (fromUpper C) = chol C := by
  have h : fromUpper (fromUpper C) = fromUpper C := by
    ext i j
    unfold fromUpper
    split_ifs <;> first | rfl | (exfalso; omega)
  unfold chol
  rw [h]

/-- **Matrices that are not symmetric are accepted**: only the upper triangle is looked at; the first moment is not symmetric
and the second one is not the log-determinant of the observed matrix. -/
theorem C62_wishart_refuted : ∃ Λ : Matrix (Fin 2) (Fin 2) ℝ, ¬ Λ.IsSymm ∧
    wishartObserve Λ = .ok ((Λ, Real.log 3), -((2 : ℕ) + 1) / 2 * Real.log 3) ∧ Λ.det = 4 := by
  refine ⟨!![2, 1; 0, 2], fun h => ?_, ?_, ?_⟩
  · have := congrFun (congrFun h 0) 1
    simp at this
  · have hf : fromUpper (!![2, 1; 0, 2] : Matrix (Fin 2) (Fin 2) ℝ) = !![2, 1; 1, 2] := by
      ext i j
      fin_cases i <;> fin_cases j <;> simp [fromUpper]
    have hsym : (!![2, 1; 1, 2] : Matrix (Fin 2) (Fin 2) ℝ).IsSymm := by
      ext i j
      fin_cases i <;> fin_cases j <;> simp
    have hdet : (!![2, 1; 1, 2] : Matrix (Fin 2) (Fin 2) ℝ).det = 3 := by
      rw [Matrix.det_fin_two_of]
      norm_num
    have hpd : (!![2, 1; 1, 2] : Matrix (Fin 2) (Fin 2) ℝ).PosDef := by
      refine Matrix.PosDef.of_dotProduct_mulVec_pos hsym fun x hx => ?_
      have h : x 0 ≠ 0 ∨ x 1 ≠ 0 := by
        by_contra hc
        push Not at hc
        apply hx
        funext i
        fin_cases i
        · exact hc.1
        · exact hc.2
      simp only [star_trivial, dotProduct, Matrix.mulVec, Fin.sum_univ_two, Matrix.of_apply, Matrix.cons_val_zero,
        Matrix.cons_val_one, Matrix.cons_val_fin_one]
      rcases h with h | h <;> nlinarith [sq_nonneg (x 0 + x 1), sq_pos_of_ne_zero h, sq_nonneg (x 0), sq_nonneg (x 1)]
    have hc : chol (!![2, 1; 0, 2] : Matrix (Fin 2) (Fin 2) ℝ) = chol !![2, 1; 1, 2] := by
      rw [← chol_fromUpper, hf]
    unfold wishartObserve
    rw [hc]
    rcases chol_spec hsym with ⟨-, U, hU, hch⟩ | ⟨hn, -⟩
    · rw [hU]
      have := hch.logdet
      rw [hdet] at this
      rw [← this]
      rfl
    · exact absurd hpd hn
  · rw [Matrix.det_fin_two_of]
    norm_num

/-! ### Log-density with probabilities of zero -/

/-- **`pdf` of a categorical node with a probability of zero is NaN for every category**: `logpdf` multiplies `log p = -inf` with
the zeros of the moments (`lower_bound_contribution` guards against this).  For probabilities (0, 1) the log-density of the
certain category should be zero. -/
theorem C62_categorical_logpdf_refuted :
    fltLogpdf [[.negInf, .fin 0]] [[.fin 0, .fin 1]] (.fin 0) (.fin 0) = .nan := by
  have hm : Flt.negInf * Flt.fin 0 = .nan := by
    show Flt.mulInf 0 false = _
    simp [Flt.mulInf]
  simp only [fltLogpdf, List.zip_cons_cons, List.zip_nil_right, List.foldl_cons, List.foldl_nil, List.zipWith_cons_cons,
    List.zipWith_nil_right, Flt.sum, List.foldr_cons, List.foldr_nil, hm, Flt.fin_mul, Flt.fin_add]
  rfl

end Verif
