import Verif.Model.Sampling
import Verif.Spec.Sampling
import Verif.Props.GaussianMoments
import Verif.Props.CategoricalChain
import Verif.Props.GammaExpectation
import Verif.Lemmas.Cholesky
import Mathlib.MeasureTheory.Function.JacobianOneDim

/-!
# C61: `random()` draws from the distribution of the node and leaves the node alone
-/

namespace Verif
open Spec MeasureTheory Matrix

/-! ### The categorical distribution -/

theorem searchsorted_iff (q : List ℝ) (hq : ∀ a ∈ q, 0 ≤ a) (s x : ℝ) (hs : s < x) (k : ℕ) (hk : k < q.length) :
    searchsorted (cumsumR s q) x = k ↔ s + (q.take k).sum < x ∧ x ≤ s + (q.take (k + 1)).sum := by
  induction q generalizing s k with
  | nil => simp at hk
  | cons a q ih =>
    simp only [List.length_cons] at hk
    have hsum : ∀ n, 0 ≤ (q.take n).sum := fun n => List.sum_nonneg fun b hb =>
      hq b (List.mem_cons_of_mem _ (List.mem_of_mem_take hb))
    unfold cumsumR searchsorted
    by_cases h : s + a < x
    · rw [if_pos h]
      rcases k with _ | k
      · simp only [Nat.add_eq_zero_iff, List.take_zero, List.sum_nil]
        simp
        intro _
        exact h
      · rw [Nat.add_right_cancel_iff, ih (fun b hb => hq b (List.mem_cons_of_mem _ hb)) (s + a) h k (by omega)]
        simp [add_assoc]
    · rw [if_neg h]
      rcases k with _ | k
      · simp
        exact ⟨hs, not_lt.1 h⟩
      · simp only [List.take_succ_cons, List.sum_cons]
        constructor
        · intro e; omega
        · rintro ⟨e, -⟩
          have := hsum k
          exact absurd (by linarith) h

theorem searchsorted_lt (q : List ℝ) (s x : ℝ) (h : x ≤ s + q.sum) (hs : s < x) : searchsorted (cumsumR s q) x < q.length := by
  induction q generalizing s with
  | nil => simp at h; linarith
  | cons a q ih =>
    unfold cumsumR searchsorted
    split_ifs with hx
    · have := ih (s + a) (by simp only [List.sum_cons] at h; linarith) hx
      simp only [List.length_cons]
      omega
    · simp

theorem categorical_sum (p : List ℝ) (hs : 0 < p.sum) (k : ℕ) :
    ((p.map fun a => a / p.sum).take k).sum = (p.take k).sum / p.sum := by
  rw [← List.map_take]
  generalize p.take k = l
  induction l with
  | nil => simp
  | cons a l ih => simp [ih, add_div]

/-- **C61** `random.categorical(p)` gives category `k` with probability `p[k] / sum(p)`. -/
theorem C61_categorical (p : List ℝ) (hp : ∀ a ∈ p, 0 ≤ a) (hs : 0 < p.sum) (k : ℕ) (hk : k < p.length) :
    uniformProb (fun x => randomCategorical p x = .ok k) = ENNReal.ofReal (p[k] / p.sum) := by
  have h0 : ¬ ∃ a ∈ p, a < 0 := by
    rintro ⟨a, ha, h⟩
    exact absurd (hp a ha) (not_le.2 h)
  set q := p.map fun a => a / p.sum with hqdef
  have hq : ∀ a ∈ q, 0 ≤ a := by
    intro a ha
    obtain ⟨b, hb, rfl⟩ := List.mem_map.1 ha
    exact div_nonneg (hp b hb) hs.le
  have hkq : k < q.length := by simpa [hqdef] using hk
  have hcs : ∀ n, (q.take n).sum = (p.take n).sum / p.sum := categorical_sum p hs
  have hle : ∀ n, (q.take n).sum ≤ 1 := by
    intro n
    rw [hcs, div_le_one hs]
    have := List.sum_take_add_sum_drop p n
    have h2 : 0 ≤ (p.drop n).sum := List.sum_nonneg fun a ha => hp a (List.mem_of_mem_drop ha)
    linarith
  have hge : ∀ n, 0 ≤ (q.take n).sum := fun n => List.sum_nonneg fun a ha => hq a (List.mem_of_mem_take ha)
  have hset : ({x : ℝ | x ∈ Set.Ico (0 : ℝ) 1 ∧ randomCategorical p x = .ok k} : Set ℝ)
      =ᵐ[volume] Set.Ioc (q.take k).sum (q.take (k + 1)).sum := by
    have hne : ∀ᵐ x ∂(volume : Measure ℝ), x ≠ 0 ∧ x ≠ 1 := by
      rw [ae_iff]
      have : {x : ℝ | ¬ (x ≠ 0 ∧ x ≠ 1)} = {0, 1} := by
        ext x
        simp only [Set.mem_ofPred_eq, not_and_or, not_not, Set.mem_insert_iff, Set.mem_singleton_iff]
      rw [this]
      exact (Set.toFinite _).measure_zero _
    filter_upwards [hne] with x hx
    apply propext
    have hval : randomCategorical p x = .ok k ↔ searchsorted (cumsumR 0 q) x = k := by
      unfold randomCategorical
      rw [if_neg h0]
      simp [hqdef]
    show (x ∈ Set.Ico (0 : ℝ) 1 ∧ randomCategorical p x = .ok k) ↔ (_ < x ∧ x ≤ _)
    rw [hval]
    constructor
    · rintro ⟨⟨ha, hb⟩, hc⟩
      have := (searchsorted_iff q hq 0 x (lt_of_le_of_ne ha (Ne.symm hx.1)) k hkq).1 hc
      simpa using this
    · rintro ⟨ha, hb⟩
      have hx0 : 0 < x := lt_of_le_of_lt (hge k) ha
      refine ⟨⟨hx0.le, lt_of_le_of_ne (hb.trans (hle _)) hx.2⟩, ?_⟩
      rw [searchsorted_iff q hq 0 x hx0 k hkq]
      simpa using ⟨ha, hb⟩
  unfold uniformProb
  rw [measure_congr hset, Real.volume_Ioc, hcs, hcs]
  congr 1
  rw [← sub_div]
  congr 1
  rw [List.take_add_one]
  simp [hk]

/-- **C61** Every draw gives one of the categories. -/
theorem C61_categorical_range (p : List ℝ) (hp : ∀ a ∈ p, 0 ≤ a) (hs : 0 < p.sum) (x : ℝ) (hx : x ∈ Set.Ico (0 : ℝ) 1) :
    ∃ k, randomCategorical p x = .ok k ∧ k < p.length := by
  have h0 : ¬ ∃ a ∈ p, a < 0 := by
    rintro ⟨a, ha, h⟩
    exact absurd (hp a ha) (not_le.2 h)
  refine ⟨_, by unfold randomCategorical; rw [if_neg h0], ?_⟩
  set q := p.map fun a => a / p.sum with hqdef
  have hl : q.length = p.length := by simp [hqdef]
  have hsum : q.sum = 1 := by
    have := categorical_sum p hs p.length
    rw [List.take_of_length_le (by simp), List.take_of_length_le (by simp), div_self hs.ne'] at this
    exact this
  rw [← hl]
  rcases hx.1.eq_or_lt with h | h
  · subst h
    have hne : q ≠ [] := by
      intro e
      rw [e] at hsum
      simp at hsum
    obtain ⟨a, l, e⟩ := List.exists_cons_of_ne_nil hne
    have ha : 0 ≤ a := by
      have : a ∈ q := by rw [e]; exact List.mem_cons_self
      obtain ⟨b, hb, rfl⟩ := List.mem_map.1 this
      exact div_nonneg (hp b hb) hs.le
    rw [e]
    unfold cumsumR searchsorted
    rw [if_neg (by linarith)]
    simp
  · exact searchsorted_lt q 0 x (by rw [hsum]; linarith [hx.2]) h

/-- **C61** Negative probabilities are refused. -/
theorem C61_categorical_raises (p : List ℝ) (a : ℝ) (ha : a ∈ p) (h : a < 0) (x : ℝ) :
    randomCategorical p x = .error .valueError := by
  unfold randomCategorical
  exact if_pos ⟨a, ha, h⟩

/-- **C61** `random.bernoulli(p)` is true with probability `p`. -/
theorem C61_bernoulli (p : ℝ) (h0 : 0 ≤ p) (h1 : p ≤ 1) :
    uniformProb (fun x => randomBernoulli p x = true) = ENNReal.ofReal p := by
  have : {x : ℝ | x ∈ Set.Ico (0 : ℝ) 1 ∧ randomBernoulli p x = true} = Set.Ico 0 p := by
    ext x
    simp only [randomBernoulli, decide_eq_true_eq, Set.mem_ofPred_eq, Set.mem_Ico]
    constructor
    · rintro ⟨⟨a, -⟩, b⟩
      exact ⟨a, b⟩
    · rintro ⟨a, b⟩
      exact ⟨⟨a, by linarith⟩, b⟩
  unfold uniformProb
  rw [this, Real.volume_Ico, sub_zero]

section
variable {D : ℕ}

theorem exp_logpdf_categorical (phi : Fin (D + 1) → ℝ) (k : Fin (D + 1)) :
    Real.exp (logpdf (multinomialFixed (Pi.single k 1)) phi (multinomialCgf 1 phi) (multinomialF 1 (Pi.single k 1)))
      = Real.exp (phi k) / ∑ j, Real.exp (phi j) := by
  have hs : 0 < ∑ j, Real.exp (phi j) := sum_exp_pos phi
  have hf : multinomialF 1 (Pi.single k 1 : Fin (D + 1) → ℕ) = 0 := by
    unfold multinomialF
    have : ∀ i, gammaln (((Pi.single k 1 : Fin (D + 1) → ℕ) i : ℝ) + 1) = 0 := by
      intro i
      rw [gammaln_nat]
      by_cases e : i = k
      · subst e; simp
      · simp [Pi.single_eq_of_ne e]
    rw [Finset.sum_congr rfl fun i _ => this i, gammaln_nat]
    simp
  have hd : phi ⬝ᵥ multinomialFixed (Pi.single k 1) = phi k := by
    unfold multinomialFixed dotProduct
    rw [Finset.sum_eq_single k]
    · simp
    · intro i _ e
      simp [Pi.single_eq_of_ne e]
    · simp
  rw [logpdf_eq, hf, hd, multinomialCgf, add_zero, Real.exp_add, Real.exp_neg]
  simp only [Nat.cast_one, one_mul]
  rw [Real.exp_log hs]
  rfl

/-- **C61** The categorical node draws category `k` with the probability its own `pdf` gives to it. -/
theorem C61_categorical_random (phi : Fin (D + 1) → ℝ) (k : Fin (D + 1)) :
    uniformProb (fun x => (categoricalRandom phi x).1 = .ok (k : ℕ))
      = ENNReal.ofReal (Real.exp (logpdf (multinomialFixed (Pi.single k 1)) phi (multinomialCgf 1 phi)
          (multinomialF 1 (Pi.single k 1)))) := by
  have hs : 0 < ∑ j, Real.exp (phi j - amaxFin phi) := sum_exp_pos fun j => phi j - amaxFin phi
  unfold categoricalRandom
  have := C61_categorical (List.ofFn fun i => Real.exp (phi i - amaxFin phi))
    (by
      intro a ha
      obtain ⟨i, rfl⟩ := (List.mem_ofFn' _ _).1 ha
      exact (Real.exp_pos _).le)
    (by rw [List.sum_ofFn]; exact hs) k (by simp [Fin.is_le])
  refine this.trans ?_
  rw [exp_logpdf_categorical, List.sum_ofFn]
  congr 1
  simp only [List.getElem_ofFn, Fin.eta, Real.exp_sub]
  rw [← Finset.sum_div, div_div_div_cancel_right₀ (Real.exp_pos _).ne']

/-- **C61** ... but afterwards `phi` is shifted while `g` is not, and `pdf` of the node sums to `exp(-max(phi))` instead
of one. -/
theorem C61_categorical_pdf (phi : Fin (D + 1) → ℝ) (x : ℝ) :
    ∑ k, Real.exp (logpdf (multinomialFixed (Pi.single k 1)) (categoricalRandom phi x).2 (multinomialCgf 1 phi)
      (multinomialF 1 (Pi.single k 1))) = Real.exp (-amaxFin phi) := by
  have hs : 0 < ∑ j, Real.exp (phi j) := sum_exp_pos phi
  have e : ∀ k, Real.exp (logpdf (multinomialFixed (Pi.single k 1)) (categoricalRandom phi x).2 (multinomialCgf 1 phi)
      (multinomialF 1 (Pi.single k 1))) = Real.exp (-amaxFin phi) * (Real.exp (phi k) / ∑ j, Real.exp (phi j)) := by
    intro k
    rw [← exp_logpdf_categorical, ← Real.exp_add, logpdf_eq, logpdf_eq]
    congr 1
    have : (categoricalRandom phi x).2 ⬝ᵥ multinomialFixed (Pi.single k 1)
        = phi ⬝ᵥ multinomialFixed (Pi.single k 1) - amaxFin phi := by
      unfold multinomialFixed dotProduct categoricalRandom
      rw [Finset.sum_eq_single k, Finset.sum_eq_single k]
      · simp
      · intro i _ e
        simp [Pi.single_eq_of_ne e]
      · simp
      · intro i _ e
        simp [Pi.single_eq_of_ne e]
      · simp
    rw [this]
    ring
  rw [Finset.sum_congr rfl fun k _ => e k, ← Finset.mul_sum, ← Finset.sum_div, div_self hs.ne', mul_one]


/-- **C61** The first draw from a node with the probabilities one half doubles its `pdf`: `phi` is the prior of
`Categorical([0.5, 0.5])`. -/
theorem C61_categorical_random_refuted :
    let phi : Fin 2 → ℝ := multinomialPhi (dirichletFixed ![0.5, 0.5])
    ∀ x, (categoricalRandom phi x).2 ≠ phi ∧
      ∑ k, Real.exp (logpdf (multinomialFixed (Pi.single k 1)) phi (multinomialCgf 1 phi)
        (multinomialF 1 (Pi.single k 1))) = 1 ∧
      ∑ k, Real.exp (logpdf (multinomialFixed (Pi.single k 1)) (categoricalRandom phi x).2 (multinomialCgf 1 phi)
        (multinomialF 1 (Pi.single k 1))) = 2 := by
  intro phi x
  have hphi : ∀ i, phi i = -Real.log 2 := by
    intro i
    show Real.log ((![0.5, 0.5] : Fin 2 → ℝ) i / ∑ j, (![0.5, 0.5] : Fin 2 → ℝ) j) = _
    rw [← Real.log_inv]
    congr 1
    fin_cases i <;> norm_num [Fin.sum_univ_two]
  have hmax : amaxFin phi = -Real.log 2 := by
    have : phi = fun _ => -Real.log 2 := funext hphi
    rw [this]
    unfold amaxFin
    exact Finset.sup'_const _ _
  have hl : 0 < Real.log 2 := Real.log_pos (by norm_num)
  refine ⟨?_, ?_, ?_⟩
  · intro h
    have := congrFun h 0
    unfold categoricalRandom at this
    simp only [hmax, hphi] at this
    linarith
  · have hs : 0 < ∑ j, Real.exp (phi j) := sum_exp_pos phi
    rw [Finset.sum_congr rfl fun k _ => exp_logpdf_categorical phi k, ← Finset.sum_div, div_self hs.ne']
  · rw [C61_categorical_pdf phi x, hmax, neg_neg, Real.exp_log (by norm_num)]

/-- what `random()` does to the state of a network: `phi` of node `n` is shifted by `m` -/
def Net.shiftPhi (G : Net) (n : G.N) (m : G.plate n → ℝ) (s : G.State) : G.State :=
  { s with phi := Function.update s.phi n fun q i => s.phi n q i - m q }

/-- **C61** In any network the shift raises the lower bound by the shift times the sum of the moments, over the
elements that are not observed: for moments that sum to one and without annealing, by `max(phi)` of every element. -/
theorem C61_shift_bound (G : Net) (n : G.N) (m : G.plate n → ℝ) (s : G.State)
    (h1 : ∀ q, G.mask n q = true → G.observed n q = false → ∑ i, s.u n q i = 1) :
    G.bound (G.shiftPhi n m s) = G.bound s
      + 1 / G.ann n * ∑ q, if G.mask n q = true ∧ G.observed n q = false then m q else 0 := by
  have hother : ∀ c, c ≠ n → ∀ q, G.contribution c (G.shiftPhi n m s) q = G.contribution c s q := by
    intro c hc q
    unfold Net.contribution Net.shiftPhi Net.parents
    simp only [Function.update_of_ne hc]
  have hself : ∀ q, (if G.mask n q then G.contribution n (G.shiftPhi n m s) q else 0)
      = (if G.mask n q then G.contribution n s q else 0)
        + 1 / G.ann n * (if G.mask n q = true ∧ G.observed n q = false then m q else 0) := by
    intro q
    by_cases hm : G.mask n q = true
    · by_cases ho : G.observed n q = true
      · simp [hm, ho, Net.contribution, Net.shiftPhi, Net.parents]
      · have ho' : G.observed n q = false := by simpa using ho
        have hu := h1 q hm ho'
        have he : ∀ a b : G.fam n |>.I → ℝ, (∑ i, (if s.u n q i ≠ 0 then a i - b i else 0) * s.u n q i)
            = (∑ i, a i * s.u n q i) - ∑ i, b i * s.u n q i := by
          intro a b
          rw [← Finset.sum_sub_distrib]
          refine Finset.sum_congr rfl fun i _ => ?_
          by_cases hi : s.u n q i = 0
          · simp [hi]
          · rw [if_pos hi]; ring
        simp only [hm, ho', Net.contribution, Net.shiftPhi, Net.parents, Function.update_self, if_true, and_self,
          Bool.not_false, Bool.false_eq_true, if_false]
        rw [he, he]
        have e2 : ∑ i, 1 / G.ann n * (s.phi n q i - m q) * s.u n q i
            = (∑ i, 1 / G.ann n * s.phi n q i * s.u n q i) - 1 / G.ann n * m q := by
          rw [show 1 / G.ann n * m q = 1 / G.ann n * m q * ∑ i, s.u n q i by rw [hu, mul_one], Finset.mul_sum,
            ← Finset.sum_sub_distrib]
          exact Finset.sum_congr rfl fun i _ => by ring
        rw [e2]
        ring
    · simp [hm]
  unfold Net.bound
  rw [← Finset.add_sum_erase _ _ (Finset.mem_univ n), ← Finset.add_sum_erase _ (fun c => ∑ q, if G.mask c q then
    G.contribution c s q else 0) (Finset.mem_univ n), Finset.sum_congr rfl fun q _ => hself q, Finset.sum_add_distrib,
    ← Finset.mul_sum]
  rw [Finset.sum_congr rfl fun c hc => Finset.sum_congr rfl fun q _ => by
    rw [hother c (Finset.ne_of_mem_erase hc) q]]
  ring

/-! ### Categorical Markov chains -/

theorem softmaxList_sum (phi : Fin (D + 1) → ℝ) : (softmaxList phi).sum = 1 := by
  have hs : 0 < ∑ j, Real.exp (phi j) := sum_exp_pos phi
  unfold softmaxList
  rw [List.sum_ofFn]
  simp only [Real.exp_sub, Real.exp_log hs]
  rw [← Finset.sum_div, div_self hs.ne']

theorem softmaxList_nonneg (phi : Fin (D + 1) → ℝ) : ∀ a ∈ softmaxList phi, 0 ≤ a := by
  intro a ha
  obtain ⟨i, rfl⟩ := (List.mem_ofFn' _ _).1 ha
  exact (Real.exp_pos _).le

theorem softmax_prob (phi : Fin (D + 1) → ℝ) (k : Fin (D + 1)) :
    uniformProb (fun x => randomCategorical (softmaxList phi) x = .ok (k : ℕ))
      = ENNReal.ofReal (Real.exp (phi k) / ∑ j, Real.exp (phi j)) := by
  have hs : 0 < ∑ j, Real.exp (phi j) := sum_exp_pos phi
  rw [C61_categorical (softmaxList phi) (softmaxList_nonneg phi) (by rw [softmaxList_sum]; exact one_pos) k
    (by simp [softmaxList, Fin.is_le]), softmaxList_sum, div_one]
  congr 1
  simp only [softmaxList, List.getElem_ofFn, Fin.eta, Real.exp_sub, Real.exp_log hs]

/-- the draws as a sequence -/
def drawSeq {N : ℕ} (x : Fin (N + 1) → ℝ) : ℕ → ℝ := fun n => if h : n < N + 1 then x ⟨n, h⟩ else 0

/-- the probability of the path `z` under `CategoricalMarkovChainDistribution.random` -/
noncomputable def chainRandomProb {N : ℕ} (phi : CatChainIx (D + 1) N → ℝ) (z : Fin (N + 1) → Fin (D + 1)) : ENNReal :=
  uniformProbs fun x : Fin (N + 1) → ℝ => ∀ n : Fin (N + 1), chainRandom phi (drawSeq x) n = .ok (z n : ℕ)

theorem chainRandomProb_eq {N : ℕ} (phi : CatChainIx (D + 1) N → ℝ) (z : Fin (N + 1) → Fin (D + 1)) :
    chainRandomProb phi z = ENNReal.ofReal ((Real.exp (phi (.inl (z 0))) / ∑ j, Real.exp (phi (.inl j)))
      * ∏ n : Fin N, Real.exp (phi (.inr (n, z n.castSucc, z n.succ))) / ∑ j, Real.exp (phi (.inr (n, z n.castSucc, j)))) := by
  let row : Fin (N + 1) → Fin (D + 1) → ℝ :=
    Fin.cases (fun i => phi (.inl i)) fun n => fun j => phi (.inr (n, z n.castSucc, j))
  have hset : {x : Fin (N + 1) → ℝ | (∀ i, x i ∈ Set.Ico (0 : ℝ) 1) ∧
        ∀ n : Fin (N + 1), chainRandom phi (drawSeq x) n = .ok (z n : ℕ)}
      = Set.univ.pi fun n => {x : ℝ | x ∈ Set.Ico (0 : ℝ) 1 ∧
          randomCategorical (softmaxList (row n)) x = .ok (z n : ℕ)} := by
    ext x
    simp only [Set.mem_ofPred_eq, Set.mem_pi, Set.mem_univ, true_imp_iff]
    rw [← forall_and]
    have hx : ∀ n : Fin (N + 1), drawSeq x n = x n := fun n => by simp only [drawSeq, n.isLt, dif_pos, Fin.eta]
    have hrow : ∀ n : Fin N, softmaxList (chainRow phi n (z n.castSucc)) = softmaxList (row n.succ) := by
      intro n
      congr 1
      funext j
      have h : (n : ℕ) < N ∧ (z n.castSucc : ℕ) < D + 1 := ⟨n.isLt, (z n.castSucc).isLt⟩
      unfold chainRow
      rw [dif_pos h]
      rfl
    constructor
    · intro h n
      refine ⟨(h n).1, ?_⟩
      have hn := (h n).2
      refine Fin.cases (motive := fun n => chainRandom phi (drawSeq x) (n : ℕ) = .ok (z n : ℕ) →
        randomCategorical (softmaxList (row n)) (x n) = .ok (z n : ℕ)) ?_ ?_ n hn
      · intro h0
        rw [← hx]
        exact h0
      · intro m hm
        have hp := (h m.castSucc).2
        simp only [Fin.val_succ, chainRandom] at hm
        simp only [Fin.val_castSucc] at hp
        rw [hp] at hm
        rw [← hrow, ← hx]
        exact hm
    · intro h n
      refine ⟨(h n).1, ?_⟩
      induction n using Fin.induction with
      | zero =>
        have := (h 0).2
        rw [← hx] at this
        exact this
      | succ m ih =>
        have := (h m.succ).2
        rw [← hrow, ← hx] at this
        simp only [Fin.val_succ, chainRandom]
        simp only [Fin.val_castSucc] at ih
        rw [ih]
        exact this
  have hprob : ∀ n, volume {x : ℝ | x ∈ Set.Ico (0 : ℝ) 1 ∧ randomCategorical (softmaxList (row n)) x = .ok (z n : ℕ)}
      = ENNReal.ofReal (Real.exp (row n (z n)) / ∑ j, Real.exp (row n j)) := fun n => softmax_prob (row n) (z n)
  unfold chainRandomProb uniformProbs
  rw [hset, volume_pi_pi, Finset.prod_congr rfl fun n _ => hprob n, ← ENNReal.ofReal_prod_of_nonneg
    (fun n _ => div_nonneg (Real.exp_pos _).le (Finset.sum_nonneg fun j _ => (Real.exp_pos _).le)), Fin.prod_univ_succ]
  rfl

theorem path_sum {K N : ℕ} (f : Fin K → ℝ) (g : Fin N → Fin K → Fin K → ℝ) (hg : ∀ n i, ∑ j, g n i j = 1) :
    ∑ z : Fin (N + 1) → Fin K, f (z 0) * ∏ n : Fin N, g n (z n.castSucc) (z n.succ) = ∑ i, f i := by
  induction N generalizing f with
  | zero =>
    rw [← (Equiv.funUnique (Fin 1) (Fin K)).symm.sum_comp]
    simp
  | succ N ih =>
    rw [← (Fin.consEquiv fun _ : Fin (N + 2) => Fin K).sum_comp, Fintype.sum_prod_type]
    refine Finset.sum_congr rfl fun a _ => ?_
    have := ih (g 0 a) (fun n => g n.succ) fun n i => hg n.succ i
    rw [hg 0 a] at this
    rw [← mul_one (f a), ← this, Finset.mul_sum]
    refine Finset.sum_congr rfl fun z _ => ?_
    rw [Fin.prod_univ_succ]
    simp [Fin.consEquiv]

theorem cmc_dot {K N : ℕ} (phi : CatChainIx K N → ℝ) (z : Fin (N + 1) → Fin K) :
    phi ⬝ᵥ cmcFixed z = phi (.inl (z 0)) + ∑ n : Fin N, phi (.inr (n, z n.castSucc, z n.succ)) := by
  unfold dotProduct
  rw [Fintype.sum_sum_type, Fintype.sum_prod_type]
  congr 1
  · simp [cmcFixed]
  · refine Finset.sum_congr rfl fun n _ => ?_
    rw [Fintype.sum_prod_type, Finset.sum_eq_single (z n.castSucc), Finset.sum_eq_single (z n.succ)]
    · simp [cmcFixed]
    · intro j _ hj
      simp [cmcFixed, Ne.symm hj]
    · simp
    · intro i _ hi
      exact Finset.sum_eq_zero fun j _ => by simp [cmcFixed, Ne.symm hi]
    · simp

/-- **C61** A categorical Markov chain draws its states from its distribution if, at every transition, the rows of
`exp(phi[1])` have the same sum.  This holds for the prior; missing: after messages from children it does not hold in
general, see `C61_chain_random_refuted`. -/
theorem C61_chain_random_partial {N : ℕ} (hN : 0 < N) (phi : CatChainIx (D + 1) N → ℝ) (c : Fin N → ℝ)
    (h : ∀ n i, ∑ j, Real.exp (phi (.inr (n, i, j))) = c n) (z : Fin (N + 1) → Fin (D + 1)) :
    chainRandomProb phi z = ENNReal.ofReal (Real.exp (logpdf (cmcFixed z) phi (cmcCgf phi) 0)) := by
  rw [chainRandomProb_eq]
  congr 1
  let a := fun z : Fin (N + 1) → Fin (D + 1) => (Real.exp (phi (.inl (z 0))) / ∑ j, Real.exp (phi (.inl j)))
      * ∏ n : Fin N, Real.exp (phi (.inr (n, z n.castSucc, z n.succ))) / ∑ j, Real.exp (phi (.inr (n, z n.castSucc, j)))
  show a z = _
  have hsum : ∑ z, a z = 1 := by
    have := path_sum (fun i => Real.exp (phi (.inl i)) / ∑ j, Real.exp (phi (.inl j)))
      (fun n i j => Real.exp (phi (.inr (n, i, j))) / ∑ j, Real.exp (phi (.inr (n, i, j))))
      (fun n i => by
        rw [← Finset.sum_div, div_self (sum_exp_pos fun j => phi (.inr (n, i, j))).ne'])
    rw [← Finset.sum_div, div_self (sum_exp_pos fun j => phi (.inl j)).ne'] at this
    exact this
  have hc : ∀ z, a z = ((∑ j, Real.exp (phi (.inl j))) * ∏ n, c n)⁻¹ * Real.exp (phi ⬝ᵥ cmcFixed z) := by
    intro z
    rw [cmc_dot, Real.exp_add, Real.exp_sum]
    simp only [a, h]
    rw [Finset.prod_div_distrib, mul_inv]
    ring
  set C := ((∑ j, Real.exp (phi (.inl j))) * ∏ n, c n)⁻¹ with hC
  have ht : C * ∑ z : Fin (N + 1) → Fin (D + 1), Real.exp (phi ⬝ᵥ cmcFixed z) = 1 := by
    rw [Finset.mul_sum, ← hsum]
    exact Finset.sum_congr rfl fun z _ => (hc z).symm
  have hpos : 0 < ∑ z : Fin (N + 1) → Fin (D + 1), Real.exp (phi ⬝ᵥ cmcFixed z) :=
    Finset.sum_pos (fun z _ => Real.exp_pos _) ⟨fun _ => 0, Finset.mem_univ _⟩
  rw [hc, logpdf_eq, C22_categorical_chain_normaliser (by omega) hN, add_zero, Real.exp_add, Real.exp_neg,
    Real.exp_log hpos, eq_inv_of_mul_eq_one_left ht]
  ring

/-- **C61** For the prior of a chain, whose parameters are the logarithms of probabilities, `random` is right. -/
theorem C61_chain_random_prior {N : ℕ} (hN : 0 < N) (p0 : Fin (D + 1) → ℝ) (P : Fin N → Fin (D + 1) → Fin (D + 1) → ℝ)
    (h0 : ∀ i, 0 < p0 i) (hP : ∀ n i j, 0 < P n i j) (s0 : ∑ i, p0 i = 1) (sP : ∀ n i, ∑ j, P n i j = 1)
    (z : Fin (N + 1) → Fin (D + 1)) :
    chainRandomProb (cmcFPhi (fun i => Real.log (p0 i)) fun k => Real.log (P k.1 k.2.1 k.2.2)) z
      = ENNReal.ofReal (p0 (z 0) * ∏ n : Fin N, P n (z n.castSucc) (z n.succ)) := by
  rw [chainRandomProb_eq]
  simp only [cmcFPhi, mul_one, Real.exp_log (h0 _), Real.exp_log (hP _ _ _), s0, sP, div_one]

/-- the parameters of a chain of two states with the initial probabilities one half and the transition matrix
`[[1/2, 1/2], [1/4, 3/4]]`, when the observation of the second state gives the message `[0, log 3]` -/
noncomputable def chainWitness : CatChainIx 2 1 → ℝ
  | .inl _ => Real.log (1 / 2)
  | .inr (_, i, j) => Real.log ((![![1 / 2, 1 / 2], ![1 / 4, 3 / 4]] : Fin 2 → Fin 2 → ℝ) i j)
      + (![0, Real.log 3] : Fin 2 → ℝ) j

/-- **C61** After a message from a child `random` ignores what the later states tell about the earlier ones: the path
`[0, 0]` has probability 1/9 but is drawn with probability 1/8. -/
theorem C61_chain_random_refuted :
    chainRandomProb chainWitness (fun _ => 0) = ENNReal.ofReal (1 / 8) ∧
    Real.exp (logpdf (cmcFixed fun _ => 0) chainWitness (cmcCgf chainWitness) 0) = 1 / 9 := by
  have e0 : ∀ i, Real.exp (chainWitness (.inl i)) = 1 / 2 := fun i => Real.exp_log (by norm_num)
  have e1 : ∀ n i j, Real.exp (chainWitness (.inr (n, i, j)))
      = (![![1 / 2, 3 / 2], ![1 / 4, 9 / 4]] : Fin 2 → Fin 2 → ℝ) i j := by
    intro n i j
    have hp : 0 < (![![1 / 2, 1 / 2], ![1 / 4, 3 / 4]] : Fin 2 → Fin 2 → ℝ) i j := by
      fin_cases i <;> fin_cases j <;> norm_num
    have hm : Real.exp ((![0, Real.log 3] : Fin 2 → ℝ) j) = (![1, 3] : Fin 2 → ℝ) j := by
      fin_cases j
      · exact Real.exp_zero
      · exact Real.exp_log (by norm_num)
    show Real.exp (Real.log _ + _) = _
    rw [Real.exp_add, Real.exp_log hp, hm]
    fin_cases i <;> fin_cases j <;> norm_num
  constructor
  · rw [chainRandomProb_eq]
    congr 1
    simp only [e0, e1, Finset.univ_unique, Finset.prod_singleton]
    norm_num [Fin.sum_univ_succ]
  · have hsum : ∑ z : Fin (1 + 1) → Fin 2, Real.exp (chainWitness ⬝ᵥ cmcFixed z) = 9 / 4 := by
      rw [Finset.sum_congr rfl fun z _ => by rw [cmc_dot, Real.exp_add, Real.exp_sum]]
      simp only [e0, e1, Finset.univ_unique, Finset.prod_singleton]
      rw [← (Fin.consEquiv fun _ : Fin 2 => Fin 2).sum_comp, Fintype.sum_prod_type]
      have hz : ∀ (a : Fin 2) (f : (Fin 1 → Fin 2) → ℝ), ∑ y, f y = f (fun _ => 0) + f fun _ => 1 := by
        intro a f
        rw [← (Equiv.funUnique (Fin 1) (Fin 2)).symm.sum_comp, Fin.sum_univ_two]
        rfl
      simp only [Fin.sum_univ_two, hz 0]
      simp [Fin.consEquiv]
      norm_num
    rw [logpdf_eq, C22_categorical_chain_normaliser (by norm_num) (by norm_num), hsum, add_zero, Real.exp_add,
      Real.exp_neg, Real.exp_log (by norm_num), cmc_dot, Real.exp_add, Real.exp_sum]
    simp only [e0, e1, Finset.univ_unique, Finset.prod_singleton]
    norm_num

/-! ### Gaussian nodes -/

theorem standardNormalPdf_eq {ι : Type*} [Fintype ι] (z : ι → ℝ) :
    standardNormalPdf z = (2 * Real.pi) ^ (-(Fintype.card ι : ℝ) / 2) * Real.exp (-(z ⬝ᵥ z) / 2) := by
  have h2 : (0 : ℝ) < 2 * Real.pi := by positivity
  unfold standardNormalPdf
  rw [Finset.prod_mul_distrib, ← Real.exp_sum, Finset.prod_const, Finset.card_univ]
  congr 1
  · rw [Real.sqrt_eq_rpow, ← Real.rpow_neg h2.le, ← Real.rpow_natCast, ← Real.rpow_mul h2.le]
    congr 1
    ring
  · congr 1
    rw [dotProduct, ← Finset.sum_div, ← Finset.sum_neg_distrib]
    congr 1
    exact Finset.sum_congr rfl fun i _ => by ring

theorem isChol_det {A U : Matrix (Fin D) (Fin D) ℝ} (h : IsChol A U) : 0 < U.det ∧ U.det ^ 2 = A.det := by
  constructor
  · rw [Matrix.det_of_upperTriangular fun i j hij => h.upper i j hij]
    exact Finset.prod_pos fun i _ => h.pos i
  · rw [← h.eq, Matrix.det_mul, Matrix.det_transpose, sq]

/-- the density of the node at `mu + U⁻¹ z`, for any `U` with `Uᵀ U = -2 phi[1]` -/
theorem exp_logpdf_gaussian' {ι : Type*} [Fintype ι] [DecidableEq ι] (phi : GIx ι → ℝ) {U : Matrix ι ι ℝ}
    (h : Uᵀ * U = (-2 : ℝ) • g1 phi) (hL : ((-2 : ℝ) • g1 phi).PosDef) (x : ι → ℝ) :
    Real.exp (logpdf (gaussianFixed x) phi (gaussianCgf phi) (gaussianF (Fintype.card ι)))
      = |U.det| * standardNormalPdf (U *ᵥ (x - ((-2 : ℝ) • g1 phi)⁻¹ *ᵥ g0 phi)) := by
  set L := (-2 : ℝ) • g1 phi with hLdef
  have hd : |U.det| ^ 2 = L.det := by rw [sq_abs, ← h, Matrix.det_mul, Matrix.det_transpose, sq]
  have hLd : 0 < L.det := hL.det_pos
  have hdpos : 0 < |U.det| := by
    refine abs_pos.2 fun e => ?_
    rw [e] at hd
    simp at hd
    exact hLd.ne hd
  have h2 : (0 : ℝ) < 2 * Real.pi := by positivity
  set mu := L⁻¹ *ᵥ g0 phi with hmudef
  have hLmu : L *ᵥ mu = g0 phi := by
    rw [hmudef, Matrix.mulVec_mulVec, Matrix.mul_nonsing_inv _ (isUnit_iff_ne_zero.2 hLd.ne'), Matrix.one_mulVec]
  have hquad : (U *ᵥ (x - mu)) ⬝ᵥ (U *ᵥ (x - mu)) = (x - mu) ⬝ᵥ L *ᵥ (x - mu) := by
    rw [← h, ← Matrix.mulVec_mulVec, Matrix.dotProduct_mulVec (x - mu), Matrix.vecMul_transpose]
  have hdot : phi ⬝ᵥ gaussianFixed x = g0 phi ⬝ᵥ x + x ⬝ᵥ (g1 phi) *ᵥ x := by
    have : phi = mkG (g0 phi) (g1 phi) := by
      funext i
      rcases i with i | ⟨i, j⟩ <;> rfl
    rw [this, mkG_dot]
    rfl
  have hg1 : g1 phi = (-0.5 : ℝ) • L := by
    rw [hLdef, smul_smul]
    norm_num
  rw [standardNormalPdf_eq, hquad, quad_sub L (posDef_transpose hL), hLmu, logpdf_eq, hdot, hg1]
  have hdet : |U.det| = Real.exp (0.5 * Real.log L.det) := by
    rw [← hd, Real.log_pow, Nat.cast_ofNat, show (0.5 : ℝ) * (2 * Real.log |U.det|) = Real.log |U.det| by ring,
      Real.exp_log hdpos]
  have hpi : (2 * Real.pi) ^ (-(Fintype.card ι : ℝ) / 2) = Real.exp (gaussianF (Fintype.card ι)) := by
    rw [gaussianF, Real.rpow_def_of_pos h2]
    congr 1
    ring
  rw [hdet, hpi, ← Real.exp_add, ← Real.exp_add]
  congr 1
  unfold gaussianCgf
  rw [← hLdef, ← hmudef, Matrix.smul_mulVec, dotProduct_smul, smul_eq_mul]
  ring

theorem exp_logpdf_gaussian (phi : GIx (Fin D) → ℝ) {U : Matrix (Fin D) (Fin D) ℝ}
    (h : IsChol ((-2 : ℝ) • g1 phi) U) (hL : ((-2 : ℝ) • g1 phi).PosDef) (x : Fin D → ℝ) :
    Real.exp (logpdf (gaussianFixed x) phi (gaussianCgf phi) (gaussianF D))
      = U.det * standardNormalPdf (U *ᵥ (x - cholSolve U (g0 phi))) := by
  have := exp_logpdf_gaussian' phi h.eq hL x
  rwa [Fintype.card_fin, abs_of_pos (isChol_det h).1, ← h.eq] at this

/-- **C61** `random()` of a Gaussian node draws from the density that its `pdf` computes: the probability that the
sample lies in `S` is the integral of the density over `S`, for every measurable `S`. -/
theorem C61_gaussian_random (phi : GIx (Fin D) → ℝ) (h : ((-2 : ℝ) • g1 phi).PosDef) :
    ∃ sample : (Fin D → ℝ) → Fin D → ℝ, (∀ z, gaussianRandom phi z = .ok (sample z)) ∧
      ∀ S : Set (Fin D → ℝ), MeasurableSet S →
        ∫⁻ z in sample ⁻¹' S, ENNReal.ofReal (standardNormalPdf z)
          = ∫⁻ x in S, ENNReal.ofReal (Real.exp (logpdf (gaussianFixed x) phi (gaussianCgf phi) (gaussianF D))) := by
  obtain ⟨-, U, hU, hC⟩ | ⟨hn, -⟩ := chol_spec (posDef_transpose h)
  swap
  · exact absurd h hn
  have hdet := (isChol_det hC).1
  have hunit : IsUnit U.det := isUnit_iff_ne_zero.2 hdet.ne'
  refine ⟨fun z => cholSolve U (g0 phi) + U⁻¹ *ᵥ z, fun z => ?_, fun S hS => ?_⟩
  · unfold gaussianRandom
    rw [hU]
    rfl
  set mu := cholSolve U (g0 phi) with hmu
  let inv : (Fin D → ℝ) → Fin D → ℝ := fun x => U *ᵥ (x - mu)
  have himg : (fun z => mu + U⁻¹ *ᵥ z) ⁻¹' S = inv '' S := by
    ext z
    constructor
    · intro hz
      refine ⟨mu + U⁻¹ *ᵥ z, hz, ?_⟩
      simp only [inv, add_sub_cancel_left, Matrix.mulVec_mulVec, Matrix.mul_nonsing_inv _ hunit, Matrix.one_mulVec]
    · rintro ⟨x, hx, rfl⟩
      show mu + U⁻¹ *ᵥ (U *ᵥ (x - mu)) ∈ S
      rw [Matrix.mulVec_mulVec, Matrix.nonsing_inv_mul _ hunit, Matrix.one_mulVec, add_sub_cancel]
      exact hx
  let T : (Fin D → ℝ) →L[ℝ] (Fin D → ℝ) := LinearMap.toContinuousLinearMap (Matrix.toLin' U)
  have hT : ∀ v, T v = U *ᵥ v := fun v => by simp [T]
  have hderiv : ∀ x ∈ S, HasFDerivWithinAt inv T S x := by
    intro x _
    have : HasFDerivAt (fun x => T (x - mu)) T x := by
      have h1 : HasFDerivAt (fun x : Fin D → ℝ => x - mu) (ContinuousLinearMap.id ℝ (Fin D → ℝ)) x :=
        (hasFDerivAt_id x).sub_const mu
      exact T.hasFDerivAt.comp x h1
    simp only [hT] at this
    exact this.hasFDerivWithinAt
  have hinj : Set.InjOn inv S := by
    intro x _ y _ hxy
    have := congrArg (fun v => U⁻¹ *ᵥ v) hxy
    simp only [inv, Matrix.mulVec_mulVec, Matrix.nonsing_inv_mul _ hunit, Matrix.one_mulVec] at this
    exact sub_left_injective this
  rw [himg, lintegral_image_eq_lintegral_abs_det_fderiv_mul volume hS hderiv hinj]
  refine lintegral_congr fun x => ?_
  have hTd : T.det = U.det := by
    show LinearMap.det (Matrix.toLin' U) = _
    exact LinearMap.det_toLin' U
  rw [hTd, abs_of_pos hdet, ← ENNReal.ofReal_mul hdet.le, exp_logpdf_gaussian phi hC h]

/-- **C61** One Gaussian number, `GaussianARD` with one element: the same. -/
theorem C61_gaussian_scalar_random (phi : Fin 2 → ℝ) (h : phi 1 < 0) (S : Set ℝ) (hS : MeasurableSet S) :
    ∫⁻ z in gaussianScalarRandom phi ⁻¹' S, ENNReal.ofReal (standardNormalPdf fun _ : Unit => z)
      = ∫⁻ x in S, ENNReal.ofReal (Real.exp (logpdf ![x, x ^ 2] phi (ardCgf0 phi) (gaussianF 1))) := by
  have hv : 0 < -0.5 / phi 1 := div_pos_of_neg_of_neg (by norm_num) h
  set std := Real.sqrt (-0.5 / phi 1) with hstd
  have hs : 0 < std := Real.sqrt_pos.2 hv
  set mu := -0.5 / phi 1 * phi 0 with hmu
  let inv : ℝ → ℝ := fun x => std⁻¹ * (x - mu)
  have himg : gaussianScalarRandom phi ⁻¹' S = inv '' S := by
    ext z
    constructor
    · intro hz
      refine ⟨mu + std * z, hz, ?_⟩
      simp only [inv, add_sub_cancel_left]
      rw [inv_mul_cancel_left₀ hs.ne']
    · rintro ⟨x, hx, rfl⟩
      show mu + std * (std⁻¹ * (x - mu)) ∈ S
      rw [mul_inv_cancel_left₀ hs.ne', add_sub_cancel]
      exact hx
  have hderiv : ∀ x ∈ S, HasDerivWithinAt inv std⁻¹ S x := by
    intro x _
    have : HasDerivAt inv (std⁻¹ * 1) x := ((hasDerivAt_id x).sub_const mu).const_mul _
    rw [mul_one] at this
    exact this.hasDerivWithinAt
  have hinj : Set.InjOn inv S := by
    intro x _ y _ hxy
    have := mul_left_cancel₀ (inv_ne_zero hs.ne') hxy
    linarith
  rw [himg, lintegral_image_eq_lintegral_abs_deriv_mul hS hderiv hinj]
  refine lintegral_congr fun x => ?_
  rw [abs_of_pos (inv_pos.2 hs), ← ENNReal.ofReal_mul (inv_pos.2 hs).le]
  congr 1
  have h2 : (0 : ℝ) < 2 * Real.pi := by positivity
  have hstd2 : std ^ 2 = -0.5 / phi 1 := Real.sq_sqrt hv.le
  have hl : std⁻¹ = Real.exp (0.5 * Real.log (-2 * phi 1)) := by
    rw [← Real.exp_log (inv_pos.2 hs)]
    congr 1
    rw [Real.log_inv, hstd, Real.log_sqrt hv.le, show -2 * phi 1 = (-0.5 / phi 1)⁻¹ by field_simp; ring, Real.log_inv]
    ring
  have hq : (Real.sqrt (2 * Real.pi))⁻¹ = Real.exp (gaussianF 1) := by
    rw [← Real.exp_log (inv_pos.2 (Real.sqrt_pos.2 h2))]
    congr 1
    rw [Real.log_inv, Real.log_sqrt h2.le, gaussianF]
    push_cast
    ring
  unfold standardNormalPdf
  rw [Finset.univ_unique, Finset.prod_singleton, hl, hq, ← Real.exp_add, ← Real.exp_add]
  congr 1
  rw [logpdf_eq]
  have e : (std⁻¹ * (x - mu)) ^ 2 = -2 * phi 1 * (x - mu) ^ 2 := by
    rw [mul_pow, inv_pow, hstd2]
    field_simp
    ring
  show _ + (_ + -(std⁻¹ * (x - mu)) ^ 2 / 2) = _
  rw [e]
  simp only [dotProduct, Fin.sum_univ_two, Matrix.cons_val_zero, Matrix.cons_val_one, ardCgf0, hmu]
  have hp : phi 1 ≠ 0 := h.ne
  field_simp
  ring

/-! ### The generators of NumPy -/

/-- **C61** Gamma: shape `phi[1]` and scale `-1/phi[0]` give the density of the node. -/
theorem C61_gamma_random (phi : Fin 2 → ℝ) (h0 : phi 0 < 0) (h1 : 0 < phi 1) (x : ℝ) (hx : 0 < x) :
    numpyGammaPdf (gammaRandomArgs phi).1 (gammaRandomArgs phi).2 x
      = Real.exp (logpdf (gammaFixed x) phi (gammaCgf phi) (gammaF x)) := by
  have hG := Real.Gamma_pos_of_pos h1
  have hb : 0 < -phi 0 := by linarith
  have hinv : -1 / phi 0 = (-phi 0)⁻¹ := by rw [neg_div, one_div, neg_inv]
  have hsc : 0 < (-phi 0)⁻¹ := inv_pos.2 hb
  unfold numpyGammaPdf gammaRandomArgs
  rw [← Real.exp_log (show 0 < x ^ (phi 1 - 1) * Real.exp (-x / (-1 / phi 0)) / ((-1 / phi 0) ^ phi 1 * Real.Gamma (phi 1)) by
    rw [hinv]; positivity)]
  congr 1
  rw [hinv, Real.log_div (by positivity) (by positivity), Real.log_mul (by positivity) (by positivity),
    Real.log_mul (by positivity) (by positivity), Real.log_rpow hx, Real.log_rpow hsc, Real.log_exp, Real.log_inv]
  simp only [logpdf_eq, dotProduct, Fin.sum_univ_two, gammaFixed, gammaCgf, gammaF, gammaln, Matrix.cons_val_zero,
    Matrix.cons_val_one, div_inv_eq_mul]
  ring

/-- **C61** Poisson -/
theorem C61_poisson_random (phi : Fin 1 → ℝ) (x : ℕ) :
    poissonPmf (poissonRandomArg phi) x = Real.exp (logpdf (poissonFixed x) phi (poissonCgf phi) (poissonF x)) := by
  have h := C21_poisson (Real.exp (phi 0)) (Real.exp_pos _) x
  have hp : 0 < poissonPmf (Real.exp (phi 0)) x := by unfold poissonPmf; positivity
  unfold poissonRandomArg
  rw [← Real.exp_log hp, ← h]
  congr 1
  simp only [logpdf_eq, dotProduct, Fin.sum_univ_one, poissonFixed, poissonPhi, poissonCgfP, poissonF, gammaFixed,
    poissonCgf, Matrix.cons_val_zero, Matrix.cons_val_one, Real.log_exp]

/-- **C61** Binomial and Bernoulli -/
theorem C61_binomial_random (N x : ℕ) (hx : x ≤ N) (phi : Fin 1 → ℝ) :
    binomialPmf N (binomialRandomArg phi) x
      = Real.exp (logpdf (binomialFixed x) phi (binomialCgf N phi) (binomialF N x)) := by
  set p := binomialRandomArg phi with hp
  have he := Real.exp_pos (-phi 0)
  have h0 : 0 < p := by rw [hp, binomialRandomArg]; positivity
  have h1 : p < 1 := by rw [hp, binomialRandomArg, div_lt_one (by positivity)]; linarith
  have hq : 0 < 1 - p := by linarith
  have h := C21_binomial N x hx p h0 h1
  have hpos : 0 < binomialPmf N p x := by
    have : (0 : ℝ) < N.choose x := by exact_mod_cast Nat.choose_pos hx
    unfold binomialPmf
    positivity
  rw [← Real.exp_log hpos, ← h]
  congr 1
  simp only [logpdf_eq, dotProduct, Fin.sum_univ_one, binomialFixed, binomialPhi, binomialCgfP, binomialCgf,
    dirichletFixed_of_sum _ (betaVector_sum p)]
  simp only [betaVector, Matrix.cons_val_zero, Matrix.cons_val_one]
  rw [show p * 1 + 0 = p by ring, show p * -1 + 1 = 1 - p by ring]
  have hlq : Real.log (1 - p) = -Real.log (1 + Real.exp (phi 0)) := by
    rw [← Real.log_inv]
    congr 1
    rw [hp, binomialRandomArg, Real.exp_neg]
    field_simp
    ring
  have hlp : Real.log p = phi 0 - Real.log (1 + Real.exp (phi 0)) := by
    have e : p = Real.exp (phi 0) / (1 + Real.exp (phi 0)) := by
      rw [hp, binomialRandomArg, Real.exp_neg]
      field_simp
      ring
    rw [e, Real.log_div (Real.exp_pos _).ne' (by positivity), Real.log_exp]
  rw [hlp, hlq]
  ring

/-- **C61** Multinomial -/
theorem C61_multinomial_random {ι : Type*} [Fintype ι] [Nonempty ι] (phi : ι → ℝ) (x : ι → ℕ) :
    multinomialPmf (∑ i, x i) (multinomialRandomArg phi) x
      = Real.exp (logpdf (multinomialFixed x) phi (multinomialCgf (∑ i, x i) phi) (multinomialF (∑ i, x i) x)) := by
  have hs := sum_exp_pos phi
  set p := multinomialRandomArg phi with hp
  have hpe : ∀ i, p i = Real.exp (phi i) / ∑ j, Real.exp (phi j) := expNormalized_eq phi
  have h0 : ∀ i, 0 < p i := fun i => by rw [hpe]; positivity
  have h1 : ∑ i, p i = 1 := by
    rw [Finset.sum_congr rfl fun i _ => hpe i, ← Finset.sum_div, div_self hs.ne']
  have h := C21_multinomial p h0 h1 x
  have hpos : 0 < multinomialPmf (∑ i, x i) p x := by
    unfold multinomialPmf
    have a : 0 < ∏ i, ((x i).factorial : ℝ) := Finset.prod_pos fun i _ => by positivity
    have b : 0 < ∏ i, p i ^ x i := Finset.prod_pos fun i _ => pow_pos (h0 i) _
    positivity
  rw [← Real.exp_log hpos, ← h]
  congr 1
  have hl : ∀ i, Real.log (p i) = phi i - Real.log (∑ j, Real.exp (phi j)) := by
    intro i
    rw [hpe, Real.log_div (Real.exp_pos _).ne' hs.ne', Real.log_exp]
  simp only [logpdf_eq, dotProduct, multinomialPhi, multinomialCgfP, multinomialCgf, dirichletFixed_of_sum p h1, hl,
    multinomialFixed, sub_mul]
  rw [Finset.sum_sub_distrib, ← Finset.mul_sum]
  push_cast
  ring

/-- **C61** Dirichlet and Beta: independent gamma variables with the shapes `phi`, divided by their sum, have the
density of the node. -/
theorem C61_dirichlet_random {ι : Type*} [Fintype ι] [Nonempty ι] (phi p : ι → ℝ) (h : ∀ i, 0 < phi i)
    (hp : ∀ i, 0 < p i) (h1 : ∑ i, p i = 1) :
    normalisedPdf (fun g => ∏ i, numpyGammaPdf (phi i) 1 (g i)) p
      = Real.exp (logpdf (dirichletFixed p) phi (dirichletCgf phi) (dirichletF p)) := by
  have hs : 0 < ∑ i, phi i := Finset.sum_pos (fun i _ => h i) Finset.univ_nonempty
  have hG : 0 < ∏ i, Real.Gamma (phi i) := Finset.prod_pos fun i _ => Real.Gamma_pos_of_pos (h i)
  have hpp : 0 < ∏ i, p i ^ (phi i - 1) := Finset.prod_pos fun i _ => Real.rpow_pos_of_pos (hp i) _
  have hint : normalisedPdf (fun g => ∏ i, numpyGammaPdf (phi i) 1 (g i)) p
      = (∏ i, Real.Gamma (phi i))⁻¹ * (∏ i, p i ^ (phi i - 1)) * Real.Gamma (∑ i, phi i) := by
    unfold normalisedPdf
    rw [Real.Gamma_eq_integral hs, ← integral_const_mul]
    refine setIntegral_congr_fun measurableSet_Ioi fun s hs' => ?_
    have hs0 : 0 < s := hs'
    have e : ∀ i, numpyGammaPdf (phi i) 1 (s * p i)
        = s ^ (phi i - 1) * p i ^ (phi i - 1) * Real.exp (-(s * p i)) * (Real.Gamma (phi i))⁻¹ := by
      intro i
      unfold numpyGammaPdf
      rw [Real.one_rpow, one_mul, div_one, Real.mul_rpow hs0.le (hp i).le, div_eq_mul_inv]
    simp only [e]
    rw [Finset.prod_mul_distrib, Finset.prod_mul_distrib, Finset.prod_mul_distrib, ← Real.exp_sum,
      Finset.sum_neg_distrib, ← Finset.mul_sum, h1, mul_one, Finset.prod_inv_distrib,
      ← Real.rpow_sum_of_pos hs0, Finset.sum_sub_distrib]
    simp only [Finset.sum_const, Finset.card_univ, nsmul_eq_mul, mul_one]
    rw [show ∑ i, phi i - 1 = ((Fintype.card ι : ℝ) - 1) + (∑ i, phi i - Fintype.card ι) by ring, Real.rpow_add hs0]
    ring
  have hd := C21_dirichlet phi p h hp h1
  have hpos : 0 < dirichletPdf phi p := by
    unfold dirichletPdf
    have := Real.Gamma_pos_of_pos hs
    positivity
  have e : Real.exp (logpdf (dirichletFixed p) phi (dirichletCgf phi) (dirichletF p)) = dirichletPdf phi p := by
    rw [← Real.exp_log hpos, ← hd]
    rfl
  rw [hint, e, dirichletPdf]
  ring

/-- **C61** Positive gamma draws never raise, and the result is a positive vector with sum one. -/
theorem C61_dirichlet_normalised {ι : Type*} [Fintype ι] [Nonempty ι] (g : ι → ℝ) (h : ∀ i, 0 < g i) :
    ∃ p, randomDirichlet g = .ok p ∧ (∀ i, 0 < p i) ∧ ∑ i, p i = 1 := by
  have hs : 0 < ∑ i, g i := Finset.sum_pos (fun i _ => h i) Finset.univ_nonempty
  refine ⟨_, by unfold randomDirichlet; rw [if_neg hs.ne'], fun i => div_pos (h i) hs, ?_⟩
  rw [← Finset.sum_div, div_self hs.ne']

/-! ### Gaussian-gamma and Wishart variables -/

/-- the density of the pair which `GaussianGammaDistribution.random` draws: a gamma number, then a Gaussian vector -/
noncomputable def gaussianGammaDrawPdf (phi : GGIx (Fin D) → ℝ) (x : Fin D → ℝ) (alpha : ℝ) : ℝ :=
  numpyGammaPdf (gammaRandomArgs (gaussianGammaRandomGamma phi)).1 (gammaRandomArgs (gaussianGammaRandomGamma phi)).2 alpha
    * Real.exp (logpdf (gaussianFixed x) (gaussianGammaRandomGaussian phi alpha)
        (gaussianCgf (gaussianGammaRandomGaussian phi alpha)) (gaussianF D))

/-- **C61** How the density of the drawn pair differs from the density of the node. -/
theorem C61_gaussianGamma_density (phi : GGIx (Fin D) → ℝ) (h : ((-2 : ℝ) • gg1 phi).PosDef) (h2 : gg2 phi < 0)
    (h3 : 0 < gg3 phi) (x : Fin D → ℝ) (alpha : ℝ) (ha : 0 < alpha) :
    gaussianGammaDrawPdf phi x alpha = Real.exp (logpdf (ggFixed x alpha) phi (ggCgf phi) (ggF x alpha))
      * Real.exp (gg3 phi * (Real.log (-gg2 phi) - Real.log (ggB phi)) - alpha * (0.5 * (ggMu phi ⬝ᵥ gg0 phi))) := by
  unfold gaussianGammaDrawPdf
  rw [C61_gamma_random (gaussianGammaRandomGamma phi) h2 h3 alpha ha, ← Real.exp_add, ← Real.exp_add]
  congr 1
  have hdet := h.det_pos
  have hd1 : gaussianGammaRandomGaussian phi alpha ⬝ᵥ gaussianFixed x
      = alpha * (gg0 phi ⬝ᵥ x) + alpha * (x ⬝ᵥ (gg1 phi) *ᵥ x) := by
    rw [gaussianGammaRandomGaussian, mkG_dot, smul_dotProduct, Matrix.smul_mulVec, dotProduct_smul]
    rfl
  have hL : (-2 : ℝ) • g1 (gaussianGammaRandomGaussian phi alpha) = alpha • ((-2 : ℝ) • gg1 phi) := by
    show (-2 : ℝ) • (alpha • gg1 phi) = _
    rw [smul_comm]
  have hc : gaussianCgf (gaussianGammaRandomGaussian phi alpha)
      = -0.5 * (alpha * (ggMu phi ⬝ᵥ gg0 phi)) + 0.5 * ((D : ℝ) * Real.log alpha + Real.log ((-2 : ℝ) • gg1 phi).det) := by
    unfold gaussianCgf
    simp only
    rw [hL, Matrix.det_smul, Fintype.card_fin, Real.log_mul (by positivity) hdet.ne', Real.log_pow]
    have hi : (alpha • ((-2 : ℝ) • gg1 phi))⁻¹ = alpha⁻¹ • ((-2 : ℝ) • gg1 phi)⁻¹ := by
      apply Matrix.inv_eq_right_inv
      rw [smul_mul_smul_comm, mul_inv_cancel₀ ha.ne', Matrix.mul_nonsing_inv _ (isUnit_iff_ne_zero.2 hdet.ne'), one_smul]
    have e : (alpha • ((-2 : ℝ) • gg1 phi))⁻¹ *ᵥ g0 (gaussianGammaRandomGaussian phi alpha) = ggMu phi := by
      rw [hi]
      show (alpha⁻¹ • ((-2 : ℝ) • gg1 phi)⁻¹) *ᵥ (alpha • gg0 phi) = _
      rw [Matrix.smul_mulVec, Matrix.mulVec_smul, smul_smul, inv_mul_cancel₀ ha.ne', one_smul]
      rfl
    rw [e]
    show -0.5 * (ggMu phi ⬝ᵥ (alpha • gg0 phi)) + _ = _
    rw [dotProduct_smul, smul_eq_mul]
  have hd2 : phi ⬝ᵥ ggFixed x alpha = alpha * (gg0 phi ⬝ᵥ x) + alpha * (x ⬝ᵥ (gg1 phi) *ᵥ x) + gg2 phi * alpha
      + gg3 phi * Real.log alpha := by
    have e : x ⬝ᵥ (gg1 phi) *ᵥ x = ∑ p : Fin D × Fin D, gg1 phi p.1 p.2 * (x p.1 * x p.2) := by
      rw [Fintype.sum_prod_type]
      simp only [dotProduct, mulVec, Finset.mul_sum]
      exact Finset.sum_congr rfl fun i _ => Finset.sum_congr rfl fun j _ => by ring
    rw [e]
    simp only [dotProduct, Fintype.sum_sum_type, Finset.mul_sum]
    simp only [ggFixed, mkGG, Sum.elim_inl, Sum.elim_inr, gg0, gg1, gg2, gg3, Finset.univ_unique, Finset.sum_singleton,
      Pi.smul_apply, Matrix.smul_apply, smul_eq_mul, Matrix.vecMulVec_apply]
    have e1 : ∀ i, phi (.inl (.inl i)) * (alpha * x i) = alpha * (phi (.inl (.inl i)) * x i) := fun i => by ring
    have e2 : ∀ p : Fin D × Fin D, phi (.inl (.inr p)) * (alpha * (x p.1 * x p.2))
        = alpha * (phi (.inl (.inr p)) * (x p.1 * x p.2)) := fun i => by ring
    simp only [e1, e2]
    have e3 : (default : Unit) = () := rfl
    rw [e3]
    ring
  have hlog : logpdf (gammaFixed alpha) (gaussianGammaRandomGamma phi) (gammaCgf (gaussianGammaRandomGamma phi)) (gammaF alpha)
      = gg2 phi * alpha + gg3 phi * Real.log alpha + (gg3 phi * Real.log (-gg2 phi) - gammaln (gg3 phi)) - Real.log alpha := by
    simp only [logpdf_eq, dotProduct, Fin.sum_univ_two, gammaFixed, gammaCgf, gammaF, gaussianGammaRandomGamma,
      Matrix.cons_val_zero, Matrix.cons_val_one]
    ring
  rw [hlog, logpdf_eq, logpdf_eq, hd1, hc, hd2, ggCgf, ggF, gaussianF, Fintype.card_fin]
  ring

/-- **C61** `GaussianGamma.random()` draws from the distribution of the node exactly if `phi[0]` is zero, that is, for
zero mean. -/
theorem C61_gaussianGamma_random_iff (phi : GGIx (Fin D) → ℝ) (h : ((-2 : ℝ) • gg1 phi).PosDef) (h2 : gg2 phi < 0)
    (h3 : 0 < gg3 phi) :
    (∀ (x : Fin D → ℝ) (alpha : ℝ), 0 < alpha → gaussianGammaDrawPdf phi x alpha
      = Real.exp (logpdf (ggFixed x alpha) phi (ggCgf phi) (ggF x alpha))) ↔ gg0 phi = 0 := by
  have key : ∀ (x : Fin D → ℝ) (alpha : ℝ), 0 < alpha → (gaussianGammaDrawPdf phi x alpha
      = Real.exp (logpdf (ggFixed x alpha) phi (ggCgf phi) (ggF x alpha)) ↔
      gg3 phi * (Real.log (-gg2 phi) - Real.log (ggB phi)) - alpha * (0.5 * (ggMu phi ⬝ᵥ gg0 phi)) = 0) := by
    intro x alpha ha
    rw [C61_gaussianGamma_density phi h h2 h3 x alpha ha, mul_eq_left₀ (Real.exp_pos _).ne', Real.exp_eq_one_iff]
  constructor
  · intro hall
    have a1 := (key 0 1 one_pos).1 (hall 0 1 one_pos)
    have a2 := (key 0 2 two_pos).1 (hall 0 2 two_pos)
    have hz : ggMu phi ⬝ᵥ gg0 phi = 0 := by linarith
    by_contra hne
    have := h.inv.dotProduct_mulVec_pos hne
    rw [star_trivial, dotProduct_comm] at this
    exact absurd hz this.ne'
  · intro hz x alpha ha
    rw [key x alpha ha]
    have hm : ggMu phi ⬝ᵥ gg0 phi = 0 := by rw [hz, dotProduct_zero]
    rw [ggB, hm]
    simp

/-- **C61** ... and the mean of the gamma number is too small: the draws have the mean `phi[3] / (-phi[2])`, the node has
`u[2]`. -/
theorem C61_gaussianGamma_mean (phi : GGIx (Fin D) → ℝ) (h : ((-2 : ℝ) • gg1 phi).PosDef) (h3 : 0 < gg3 phi)
    (hb : 0 < ggB phi) (hne : gg0 phi ≠ 0) : gg3 phi / -gg2 phi < gg2 (ggMoments phi) := by
  have hm : 0 < ggMu phi ⬝ᵥ gg0 phi := by
    have := h.inv.dotProduct_mulVec_pos hne
    rwa [star_trivial, dotProduct_comm] at this
  show gg3 phi / -gg2 phi < gg3 phi / ggB phi
  refine div_lt_div_of_pos_left h3 hb ?_
  rw [ggB]
  linarith

/-- **C61** `random.wishart(nu, V)` returns a `nu × nu` matrix instead of a `D × D` one. -/
theorem C61_wishart_refuted {nu : ℕ} (X : Matrix (Fin nu) (Fin D) ℝ) (h : D < nu) :
    ∃ W, randomWishart X = .ok ((nu, nu), W) ∧ (nu, nu) ≠ (D, D) := by
  refine ⟨X * Xᵀ, ?_, ?_⟩
  · unfold randomWishart
    rw [if_neg (by omega)]
  · intro e
    have := congrArg Prod.fst e
    simp only at this
    omega

end

/-! ### The hypotheses are met -/

example : uniformProb (fun x => randomCategorical [1, 0, 3] x = .ok 2) = ENNReal.ofReal (3 / 4) := by
  rw [C61_categorical [1, 0, 3] (by norm_num) (by norm_num) 2 (by norm_num)]
  norm_num

example : randomCategorical [1, -1, 3] 0.5 = .error .valueError :=
  C61_categorical_raises _ (-1) (by simp) (by norm_num) _

example : uniformProb (fun x => randomBernoulli 0.3 x = true) = ENNReal.ofReal 0.3 :=
  C61_bernoulli 0.3 (by norm_num) (by norm_num)

example (z : Fin 3 → Fin 2) :
    chainRandomProb (cmcFPhi (fun _ => Real.log (1 / 2)) fun _ => Real.log (1 / 2)) z
      = ENNReal.ofReal (1 / 2 * ∏ _n : Fin 2, (1 / 2 : ℝ)) :=
  C61_chain_random_prior (D := 1) (N := 2) (by norm_num) (fun _ => 1 / 2) (fun _ _ _ => 1 / 2) (by norm_num) (by norm_num)
    (by norm_num) (by norm_num) z

example : ((-2 : ℝ) • g1 (mkG ![1, 2] ((-0.5 : ℝ) • 1) : GIx (Fin 2) → ℝ)).PosDef := by
  have : (-2 : ℝ) • g1 (mkG ![1, 2] ((-0.5 : ℝ) • 1) : GIx (Fin 2) → ℝ) = 1 := by
    show (-2 : ℝ) • ((-0.5 : ℝ) • (1 : Matrix (Fin 2) (Fin 2) ℝ)) = 1
    rw [smul_smul]
    norm_num
  rw [this]
  exact Matrix.PosDef.one

/-- a Gaussian-gamma node with mean one: the draws do not follow its distribution -/
example : ¬ ∀ (x : Fin 1 → ℝ) (alpha : ℝ), 0 < alpha →
    gaussianGammaDrawPdf (mkGG ![1] ((-0.5 : ℝ) • 1) (-2) 1) x alpha
      = Real.exp (logpdf (ggFixed x alpha) (mkGG ![1] ((-0.5 : ℝ) • 1) (-2) 1) (ggCgf (mkGG ![1] ((-0.5 : ℝ) • 1) (-2) 1))
          (ggF x alpha)) := by
  rw [C61_gaussianGamma_random_iff]
  · intro h
    have h0 : ((![1] : Fin 1 → ℝ) 0) = 0 := congrFun h 0
    norm_num at h0
  · have : (-2 : ℝ) • gg1 (mkGG ![1] ((-0.5 : ℝ) • 1) (-2) 1 : GGIx (Fin 1) → ℝ) = 1 := by
      show (-2 : ℝ) • ((-0.5 : ℝ) • (1 : Matrix (Fin 1) (Fin 1) ℝ)) = 1
      rw [smul_smul]
      norm_num
    rw [this]
    exact Matrix.PosDef.one
  · show (-2 : ℝ) < 0
    norm_num
  · show (0 : ℝ) < 1
    norm_num

example : ∃ W, randomWishart (fun _ _ => 1 : Matrix (Fin 3) (Fin 2) ℝ) = .ok ((3, 3), W) ∧ (3, 3) ≠ (2, 2) :=
  C61_wishart_refuted _ (by norm_num)

end Verif
