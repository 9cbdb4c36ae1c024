import Verif.Lemmas.ChainPlates
import Verif.Props.BandPlates
import Verif.Props.SumToShape
import Verif.Spec.ChainPlates

/-!
# C87: the recursion of a Markov chain on whole arrays
-/

namespace Verif
open Spec

variable {D : Nat}

theorem atleastNd_at {α : Type} (X : Arr α) (d : Nat) (c : Nat → Nat) : (atleastNd X d).at c = X.at c := by
  unfold Arr.at
  show X.get _ = X.get _
  congr 1
  funext k
  unfold restrict atleastNd
  show (if axisLen (List.replicate _ 1 ++ X.shape) k = 1 then 0 else c k) = _
  rw [axisLen_pad]

theorem normaliser_congr {p0 p0' : Fin D → ℝ} {P P' : Nat → Fin D → Fin D → ℝ} {N : Nat} (h0 : p0 = p0') (hP : ∀ n < N, P n = P' n) :
    normaliser p0 P N = normaliser p0' P' N ∧ (∀ t i, marginal p0 P N t i = marginal p0' P' N t i) ∧
      ∀ n i j, pairMarginal p0 P N n i j = pairMarginal p0' P' N n i j := by
  have : pathWeight p0 P N = pathWeight p0' P' N := by
    funext z
    unfold pathWeight
    rw [h0]
    congr 1
    exact Finset.prod_congr rfl fun n _ => by rw [hP n n.2]
  unfold marginal pairMarginal normaliser
  rw [this]
  exact ⟨rfl, fun _ _ => rfl, fun _ _ _ => rfl⟩

theorem plateZ0_some {z : Fin D → Fin D → ℝ} (h : ∑ i, ∑ j, z i j = 1) (i : Fin D) :
    plateZ0 (fun i j => some (z i j)) i = some (∑ j, z i j) := by
  unfold plateZ0
  simp only [nanTotal_some, sum_finRange, h]
  show (if (1 : ℝ) = 0 then none else some (_ / 1)) = _
  rw [if_neg one_ne_zero, div_one]

theorem plateZ0_none (hD : 0 < D) (i : Fin D) : plateZ0 (fun (_ _ : Fin D) => none) i = none := by
  have : nanTotal ((List.finRange D).map fun _ => none) = none := by
    unfold nanTotal
    rw [mapM_id_none (List.mem_map.2 ⟨⟨0, hD⟩, List.mem_finRange _, rfl⟩)]
    rfl
  unfold plateZ0
  simp only [this]
  rfl

/-- **C87** `alpha_beta_recursion` on arrays: after leading unit axes have been added to give `logp0` one axis and `logP` three axes at
least, they have plates `Q0` and `Q1` that broadcast to `P`.  The function succeeds and its results have the plates `P`.  On each plate on
which some sequence of states has a positive weight, `g` is minus the logarithm of the sum of the weights of all sequences of this plate, and
`z0` and `zz` are the exact posteriors.  On each plate on which no sequence has a positive weight, all of the results of this plate are NaN
(or infinite, for `g`); the other plates are not affected. -/
theorem C87_plates {logp0 logP : Arr (WithBot ℝ)} {Q0 Q1 P : List Nat} {N : Nat}
    (h0 : List.replicate (1 - logp0.shape.length) 1 ++ logp0.shape = Q0 ++ [D])
    (h1 : List.replicate (3 - logP.shape.length) 1 ++ logP.shape = Q1 ++ [N, D, D]) (hP : IsBroadcast [Q0, Q1] P) (hN : 0 < N) (hD : 0 < D) :
    ∃ r, alphaBetaArr logp0 logP = .ok ⟨D, r⟩ ∧ r.z0.shape = P ∧ r.zz.length = N ∧ (∀ a ∈ r.zz, a.shape = P) ∧ r.g.shape = P ∧
      ∀ p ∈ indices P,
        (normaliser (plateFirst D logp0 p) (plateSteps D logP p) N ≠ 0 →
          r.g.at (coord p) = some ((-Real.log (normaliser (plateFirst D logp0 p) (plateSteps D logP p) N) : ℝ) : WithBot ℝ) ∧
          (∀ i, r.z0.at (coord p) i = some (marginal (plateFirst D logp0 p) (plateSteps D logP p) N 0 i)) ∧
          ∀ (n : Fin N) a, r.zz[n]? = some a →
            ∀ i j, a.at (coord p) i j = some (pairMarginal (plateFirst D logp0 p) (plateSteps D logP p) N n i j)) ∧
        (normaliser (plateFirst D logp0 p) (plateSteps D logP p) N = 0 →
          r.g.at (coord p) = none ∧ (∀ i, r.z0.at (coord p) i = none) ∧ ∀ a ∈ r.zz, ∀ i j, a.at (coord p) i j = none) := by
  have a0 : (atleastNd logp0 1).shape = Q0 ++ [D] := h0
  have a1 : (atleastNd logP 3).shape = Q1 ++ [N, D, D] := h1
  have s0 : (chainFirst D (atleastNd logp0 1)).shape = Q0 := by simp [chainFirst, a0]
  have s1 : ∀ n, (chainStepBlock D (atleastNd logP 3) n).shape = Q1 := fun n => by simp [chainStepBlock, a1]
  have b0 : BroadcastsTo (chainFirst D (atleastNd logp0 1)).shape P := by rw [s0]; exact IsBroadcast.to hP (by simp)
  have b1 : ∀ n, BroadcastsTo (chainStepBlock D (atleastNd logP 3) n).shape P := fun n => by rw [s1]; exact IsBroadcast.to hP (by simp)
  obtain ⟨r, r1, r2, r3, r4, r5, r6, r7⟩ := chainPlates_ok b0 b1 hN
  refine ⟨r, ?_, r2, r3, fun a ha => ?_, r4, fun p hp => ?_⟩
  · have e0 : axisLen (atleastNd logp0 1).shape 0 = D := by rw [a0]; simp [axisLen]
    have e1 : axisLen (atleastNd logP 3).shape 0 = D := by rw [a1]; simp [axisLen]
    have e2 : axisLen (atleastNd logP 3).shape 1 = D := by rw [a1]; simp [axisLen]
    have e3 : axisLen (atleastNd logP 3).shape 2 = N := by rw [a1]; simp [axisLen]
    unfold alphaBetaArr
    subst e0
    simp only [e1, e2, e3, s0, s1, (broadcastedShape_ok _ _).2 hP, r1, ne_eq, not_true_eq_false, or_self, if_false, hN.ne', hD.ne', false_and,
      bind, Except.bind, pure, Except.pure]
  · obtain ⟨n, hn⟩ := List.getElem?_of_mem ha
    exact (r5 n a hn).1
  · -- the potentials of this plate
    set l0 : Fin D → WithBot ℝ := fun i => logp0.get (atLast (restrict Q0 (coord p)) i) with hl0
    set lP : Nat → Fin D → Fin D → WithBot ℝ := fun n i j => logP.get (atLast (atLast (atLast (restrict Q1 (coord p)) n) i) j) with hlP
    have c0 : (chainFirst D (atleastNd logp0 1)).at (coord p) = someVec l0 := by
      unfold Arr.at
      rw [s0]
      rfl
    have c1 : (fun n => (chainStepBlock D (atleastNd logP 3) n).at (coord p)) = someTab lP := by
      funext n
      unfold Arr.at
      rw [s1]
      rfl
    have d0 : (fun i => expBot (l0 i)) = plateFirst D logp0 p := by
      funext i
      unfold plateFirst
      rw [← atleastNd_at logp0 1]
      unfold Arr.at
      rw [a0, coord_snoc, restrict_atLast _ i.2]
      rfl
    have d1 : ∀ n < N, expP lP n = plateSteps D logP p n := fun n hn => by
      funext i j
      unfold plateSteps
      rw [← atleastNd_at logP 3]
      unfold Arr.at
      rw [a1, coord_snoc3, show Q1 ++ [N, D, D] = Q1 ++ [N] ++ [D] ++ [D] by simp, restrict_atLast _ j.2, restrict_atLast _ i.2,
        restrict_atLast _ hn]
      rfl
    obtain ⟨n1, n2, n3⟩ := normaliser_congr d0 d1
    have hnorm : normaliser (plateFirst D logp0 p) (plateSteps D logP p) N = ∑ j, fw l0 lP N j := by
      rw [← n1]
      exact normaliser_eq _ _ _
    have hpair : ∀ (n : Fin N) i j, fw l0 lP n i * expP lP n i j * bw lP N (n + 1) j / ∑ j, fw l0 lP N j =
        pairMarginal (plateFirst D logp0 p) (plateSteps D logP p) N n i j := fun n i j => by
      rw [← n3]
      unfold pairMarginal
      rw [sum_paths_pair, n1, hnorm]
      rfl
    have hblk : ∀ n, (chainStepBlock D (atleastNd logP 3) n).at (coord p) = someTab lP n := fun n => congrFun c1 n
    have hzz : ∀ (n : Nat) a, r.zz[n]? = some a → n < N ∧ ∀ i j, a.at (coord p) i j =
        platePair (plateAlpha (someVec l0) (someTab lP) n).1 (plateBeta (someTab lP) N (N - 1 - n)) (someTab lP n) i j := fun n a ha => by
      have hn : n < N := by
        obtain ⟨h, -⟩ := List.getElem?_eq_some_iff.1 ha
        omega
      have := (r5 n a ha).2 (coord p)
      rw [c0, c1, hblk] at this
      exact ⟨hn, fun i j => by rw [this]⟩
    have hg := r6 (coord p)
    have hz := r7 (coord p)
    rw [c0, c1] at hg hz
    rw [hblk] at hz
    have hz0 : ∀ i j, platePair (someVec l0) (plateBeta (someTab lP) N (N - 1)) (someTab lP 0) i j =
        platePair (plateAlpha (someVec l0) (someTab lP) 0).1 (plateBeta (someTab lP) N (N - 1 - 0)) (someTab lP 0) i j := fun _ _ => rfl
    constructor
    · intro hne
      rw [hnorm] at hne
      refine ⟨?_, fun i => ?_, fun n a ha i j => ?_⟩
      · rw [hg, hnorm]
        exact (plateG_spec l0 lP hD N hN).1 hne
      · rw [hz]
        have e : platePair (someVec l0) (plateBeta (someTab lP) N (N - 1)) (someTab lP 0) = fun i j =>
            some (pairMarginal (plateFirst D logp0 p) (plateSteps D logP p) N ⟨0, hN⟩ i j) := by
          funext i j
          rw [hz0, (platePair_spec l0 lP hD N 0 hN).1 hne i j, ← hpair]
        rw [e, plateZ0_some, sum_pairMarginal]
        · rfl
        · simp only [← hpair]
          simp only [← Finset.sum_div]
          rw [pair_total l0 lP N 0 hN, div_self hne]
      · rw [(hzz n a ha).2, (platePair_spec l0 lP hD N n n.2).1 hne, hpair]
    · intro hze
      rw [hnorm] at hze
      refine ⟨?_, fun i => ?_, fun a ha i j => ?_⟩
      · rw [hg]
        exact (plateG_spec l0 lP hD N hN).2 hze
      · rw [hz]
        have e : platePair (someVec l0) (plateBeta (someTab lP) N (N - 1)) (someTab lP 0) = fun _ _ => none := by
          funext i j
          rw [hz0, (platePair_spec l0 lP hD N 0 hN).2 hze i j]
        rw [e, plateZ0_none hD]
      · obtain ⟨n, hn⟩ := List.getElem?_of_mem ha
        obtain ⟨q1, q2⟩ := hzz n a hn
        rw [q2, (platePair_spec l0 lP hD N n q1).2 hze]

/-- **C87** With finite log-potentials every plate has a posterior: the results are exact on all plates. -/
theorem C87_finite {logp0 logP : Arr (WithBot ℝ)} {Q0 Q1 P : List Nat} {N : Nat}
    (h0 : List.replicate (1 - logp0.shape.length) 1 ++ logp0.shape = Q0 ++ [D])
    (h1 : List.replicate (3 - logP.shape.length) 1 ++ logP.shape = Q1 ++ [N, D, D]) (hP : IsBroadcast [Q0, Q1] P) (hN : 0 < N) (hD : 0 < D)
    (f0 : ∀ c, logp0.get c ≠ ⊥) (f1 : ∀ c, logP.get c ≠ ⊥) :
    ∃ r, alphaBetaArr logp0 logP = .ok ⟨D, r⟩ ∧ r.zz.length = N ∧ ∀ p ∈ indices P,
      r.g.at (coord p) = some ((-Real.log (normaliser (plateFirst D logp0 p) (plateSteps D logP p) N) : ℝ) : WithBot ℝ) ∧
      (∀ i, r.z0.at (coord p) i = some (marginal (plateFirst D logp0 p) (plateSteps D logP p) N 0 i)) ∧
      ∀ (n : Fin N) a, r.zz[n]? = some a →
        ∀ i j, a.at (coord p) i j = some (pairMarginal (plateFirst D logp0 p) (plateSteps D logP p) N n i j) := by
  obtain ⟨r, r1, -, r3, -, -, r6⟩ := C87_plates h0 h1 hP hN hD
  refine ⟨r, r1, r3, fun p hp => (r6 p hp).1 ?_⟩
  have pos : ∀ x : WithBot ℝ, x ≠ ⊥ → 0 < expBot x := fun x hx => by
    cases x with
    | bot => exact absurd rfl hx
    | coe x => exact Real.exp_pos _
  apply ne_of_gt
  have : Nonempty (Fin D) := ⟨⟨0, hD⟩⟩
  refine Finset.sum_pos (fun z _ => ?_) Finset.univ_nonempty
  exact mul_pos (pos _ (f0 _)) (Finset.prod_pos fun n _ => pos _ (f1 _))

/-- **C87** Arrays that do not fit raise: plates that do not broadcast together, or transition tables that are not `D × D` (a `ValueError`);
no time instances (an `IndexError`); no states although there are plates (a `ValueError`). -/
theorem C87_raises {logp0 logP : Arr (WithBot ℝ)} {Q0 Q1 : List Nat} {N A B : Nat}
    (h0 : List.replicate (1 - logp0.shape.length) 1 ++ logp0.shape = Q0 ++ [D])
    (h1 : List.replicate (3 - logP.shape.length) 1 ++ logP.shape = Q1 ++ [N, A, B]) :
    ((¬ ∃ P, IsBroadcast [Q0, Q1] P) → alphaBetaArr logp0 logP = .error .valueError) ∧
    ((A ≠ D ∨ B ≠ D) → alphaBetaArr logp0 logP = .error .valueError) ∧
    (A = D → B = D → ∀ P, IsBroadcast [Q0, Q1] P → N = 0 → alphaBetaArr logp0 logP = .error .indexError) ∧
    (A = D → B = D → ∀ P, IsBroadcast [Q0, Q1] P → 0 < N → D = 0 → P.prod ≠ 0 → alphaBetaArr logp0 logP = .error .valueError) := by
  have a0 : (atleastNd logp0 1).shape = Q0 ++ [D] := h0
  have a1 : (atleastNd logP 3).shape = Q1 ++ [N, A, B] := h1
  have s0 : ∀ D', (chainFirst D' (atleastNd logp0 1)).shape = Q0 := fun _ => by simp [chainFirst, a0]
  have s1 : ∀ D' n, (chainStepBlock D' (atleastNd logP 3) n).shape = Q1 := fun _ n => by simp [chainStepBlock, a1]
  have e0 : axisLen (atleastNd logp0 1).shape 0 = D := by rw [a0]; simp [axisLen]
  have e1 : axisLen (atleastNd logP 3).shape 0 = B := by rw [a1]; simp [axisLen]
  have e2 : axisLen (atleastNd logP 3).shape 1 = A := by rw [a1]; simp [axisLen]
  have e3 : axisLen (atleastNd logP 3).shape 2 = N := by rw [a1]; simp [axisLen]
  have hno : (¬ ∃ P, IsBroadcast [Q0, Q1] P) → broadcastedShape [Q0, Q1] = .error .valueError := fun h => by
    cases hb : broadcastedShape [Q0, Q1] with
    | ok P => exact absurd ⟨P, (broadcastedShape_ok _ _).1 hb⟩ h
    | error e => rw [broadcastedShape_error hb]
  unfold alphaBetaArr
  refine ⟨fun h => ?_, fun h => ?_, fun hA hB P hP hN => ?_, fun hA hB P hP hN hD hp => ?_⟩
  · simp only [s0, s1, hno h, bind, Except.bind]
  · by_cases hb : ∃ P, IsBroadcast [Q0, Q1] P
    · obtain ⟨P, hP⟩ := hb
      simp only [s0, s1, e0, e1, e2, (broadcastedShape_ok _ _).2 hP, bind, Except.bind, ne_eq]
      rw [if_pos h]
      rfl
    · simp only [s0, s1, hno hb, bind, Except.bind]
  · subst hA hB hN
    simp only [s0, s1, e0, e1, e2, e3, (broadcastedShape_ok _ _).2 hP, bind, Except.bind, ne_eq, not_true_eq_false, or_self, if_false]
    rfl
  · subst hA hB hD
    simp only [s0, s1, e0, e1, e2, e3, (broadcastedShape_ok _ _).2 hP, bind, Except.bind, ne_eq, not_true_eq_false, or_self, if_false, hN.ne',
      hp, not_false_eq_true, and_self, if_true]
    rfl

/-- Two states, one time step, and two plates that share the first state; no transition is possible on the second plate. -/
def demoFirst : Arr (WithBot ℝ) := ⟨[2], fun _ => ((0 : ℝ) : WithBot ℝ)⟩
/-- The transitions of the two plates -/
def demoSteps : Arr (WithBot ℝ) := ⟨[2, 1, 2, 2], fun c => if c 3 = 0 then ((0 : ℝ) : WithBot ℝ) else ⊥⟩

example : ∃ r : ChainPosterior 2, alphaBetaArr demoFirst demoSteps = .ok ⟨2, r⟩ ∧ r.g.shape = [2] ∧
    r.g.at (coord [0]) = some ((-Real.log 4 : ℝ) : WithBot ℝ) ∧ r.g.at (coord [1]) = none := by
  obtain ⟨r, r1, -, -, -, r5, r6⟩ := C87_plates (D := 2) (logp0 := demoFirst) (logP := demoSteps) (Q0 := []) (Q1 := [2]) (P := [2]) (N := 1) rfl rfl
    ((broadcastedShape_ok _ _).1 rfl) (by norm_num) (by norm_num)
  have n0 : normaliser (plateFirst 2 demoFirst [0]) (plateSteps 2 demoSteps [0]) 1 = 4 := by
    have : ∀ z, pathWeight (plateFirst 2 demoFirst [0]) (plateSteps 2 demoSteps [0]) 1 z = 1 := fun z => by
      simp [pathWeight, plateFirst, plateSteps, demoFirst, demoSteps, Arr.at, restrict, coord, axisLen, expBot]
    unfold normaliser
    simp only [this]
    simp
  have n1 : normaliser (plateFirst 2 demoFirst [1]) (plateSteps 2 demoSteps [1]) 1 = 0 := by
    refine Finset.sum_eq_zero fun z _ => ?_
    simp [pathWeight, plateFirst, plateSteps, demoFirst, demoSteps, Arr.at, restrict, coord, axisLen, expBot]
  refine ⟨r, r1, r5, ?_, ((r6 [1] (by decide)).2 n1).1⟩
  have := ((r6 [0] (by decide)).1 (by rw [n0]; norm_num)).1
  rwa [n0] at this

/-- The same chain without the impossible plate: all potentials are finite. -/
example : ∃ r : ChainPosterior 2, alphaBetaArr demoFirst ⟨[2, 2], fun c => ((c 0 : ℝ) : WithBot ℝ)⟩ = .ok ⟨2, r⟩ ∧ r.zz.length = 1 := by
  obtain ⟨r, r1, r2, -⟩ := C87_finite (D := 2) (logp0 := demoFirst) (logP := ⟨[2, 2], fun c => ((c 0 : ℝ) : WithBot ℝ)⟩) (Q0 := []) (Q1 := [])
    (P := []) (N := 1) rfl rfl ((broadcastedShape_ok _ _).1 rfl) (by norm_num) (by norm_num) (fun c => by simp [demoFirst]) (fun c => by simp)
  exact ⟨r, r1, r2⟩

/-- Three states do not fit tables of two states; two plates do not fit three plates; and there must be a time instance. -/
example : alphaBetaArr ⟨[3], fun _ => ⊥⟩ demoSteps = .error .valueError ∧
    alphaBetaArr ⟨[3, 2], fun _ => ⊥⟩ demoSteps = .error .valueError ∧
    alphaBetaArr demoFirst ⟨[0, 2, 2], fun _ => ⊥⟩ = .error .indexError ∧
    alphaBetaArr ⟨[0], fun _ => ⊥⟩ ⟨[1, 0, 0], fun _ => ⊥⟩ = .error .valueError :=
  ⟨(C87_raises (D := 3) (Q0 := []) (Q1 := [2]) (N := 1) (A := 2) (B := 2) rfl rfl).2.1 (.inl (by norm_num)),
    (C87_raises (D := 2) (Q0 := [3]) (Q1 := [2]) (N := 1) (A := 2) (B := 2) rfl rfl).1 (fun ⟨P, h⟩ => by
      have := (broadcastedShape_ok _ _).2 h
      cases this),
    (C87_raises (D := 2) (Q0 := []) (Q1 := []) (N := 0) (A := 2) (B := 2) rfl rfl).2.2.1 rfl rfl [] ((broadcastedShape_ok _ _).1 rfl) rfl,
    (C87_raises (D := 0) (Q0 := []) (Q1 := []) (N := 1) (A := 0) (B := 0) rfl rfl).2.2.2 rfl rfl [] ((broadcastedShape_ok _ _).1 rfl)
      (by norm_num) rfl (by simp)⟩

end Verif
