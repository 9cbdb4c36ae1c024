import Verif.Model.MultiMixture
import Verif.Spec.MultiMixture
import Verif.Props.Mixture
import Verif.Props.Utils
import Verif.Lemmas.RowMajor

/-!
# C89: mixtures over several categorical variables

`P` are the plates of the node, `Ks` the numbers of clusters of the categorical variables `thetas`, and the parameters of the mixed distribution
have the plates `P ++ Ks`.
-/

namespace Verif
open Spec

/-! ### The arguments of `Mixture` -/

section
variable {N : Type}

/-- The nested mixtures that are meant -/
def nestOf (params : List N) : List N → MixNest N
  | [] => .mixed params
  | z :: zs => .mixture z (nestOf params zs)

theorem addAxesFrom_length (f : Nat → N → N) (i : Nat) (ts : List N) : (addAxesFrom f i ts).length = ts.length := by
  induction ts generalizing i with
  | nil => rfl
  | cons t ts ih => simp [addAxesFrom, ih]

theorem zipperMerge_two {β : Type} (x : β) : ∀ l : List β, zipperMerge [List.replicate l.length x, l] = l.flatMap fun a => [x, a] := by
  have hfold : ∀ (ls : List (List β)) (acc : List β), ls.foldl (· ++ ·) acc = acc ++ ls.flatten := by
    intro ls
    induction ls with
    | nil => intro acc; simp
    | cons a ls ih => intro acc; simp [ih]
  have hz : ∀ l : List β, (zipStar l.length [List.replicate l.length x, l]).flatten = l.flatMap fun a => [x, a] := by
    intro l
    induction l with
    | nil => simp [zipStar]
    | cons a l ih =>
      rw [List.length_cons, zipStar, if_neg (by simp)]
      simp only [List.flatMap_cons, List.flatMap_nil, List.map_cons, List.map_nil, List.flatten_cons, List.replicate_succ, List.take_succ_cons, List.take_zero,
        List.drop_succ_cons, List.drop_zero, ih]
      rfl
  intro l
  unfold zipperMerge
  rw [hfold, List.nil_append]
  simpa using hz l

theorem mixedConstructor_nodes (l : List N) : mixedConstructor (l.map MixArg.node) = .ok l := by
  induction l with
  | nil => rfl
  | cons a l ih => simp [mixedConstructor, ih, bind, Except.bind, pure, Except.pure]

/-- **C89** `MultiMixture` builds the mixture over the first variable of the mixture over the second variable and so on, of the mixed
distribution; without variables it raises. -/
theorem C89_nesting (addAxes : Nat → N → N) (thetas params : List N) :
    nestConstructor (multiMixtureArgs addAxes thetas params) =
      if thetas = [] then .error .typeError else .ok (nestOf params (addAxesFrom addAxes 0 thetas)) := by
  cases thetas with
  | nil => simp [multiMixtureArgs, addAxesFrom, zipperMerge, zipStar, nestConstructor]
  | cons t ts =>
    rw [if_neg (by simp)]
    have key : ∀ (z : N) (zs : List N), nestConstructor (MixArg.node z :: (zs.map MixArg.node).flatMap (fun a => [MixArg.mixtureClass, a]) ++
        MixArg.mixedClass :: params.map MixArg.node) = .ok (nestOf params (z :: zs)) := by
      intro z zs
      induction zs generalizing z with
      | nil =>
        simp [nestConstructor, mixedConstructor_nodes, bind, Except.bind, pure, Except.pure, nestOf]
      | cons y zs ih =>
        have := ih y
        simp only [List.map_cons, List.flatMap_cons, List.cons_append, List.nil_append, nestConstructor] at this ⊢
        rw [this]
        rfl
    have hm : multiMixtureArgs addAxes (t :: ts) params = MixArg.node (addAxes 0 t) ::
        ((addAxesFrom addAxes 1 ts).map MixArg.node).flatMap (fun a => [MixArg.mixtureClass, a]) ++ MixArg.mixedClass :: params.map MixArg.node := by
      have hl : ts.length = ((addAxesFrom addAxes 1 ts).map MixArg.node).length := by rw [List.length_map, addAxesFrom_length]
      unfold multiMixtureArgs
      simp only [addAxesFrom, List.map_cons, List.take_succ_cons, List.take_zero, List.drop_succ_cons, List.drop_zero, List.length_cons,
        Nat.add_sub_cancel]
      rw [hl, zipperMerge_two]
      rfl
    rw [hm]
    exact key _ _

end

/-! ### Coordinates and sums -/

theorem clusterCoord_nil (p : Nat → Nat) : clusterCoord [] p = p := by
  funext k; simp [clusterCoord, joinC]

theorem clusterCoord_snoc (ks : List Nat) (k : Nat) (p : Nat → Nat) : clusterCoord (ks ++ [k]) p = consC k (clusterCoord ks p) := by
  funext j
  unfold clusterCoord joinC coord
  cases j with
  | zero => simp [consC]
  | succ j =>
    simp only [consC, List.length_append, List.length_singleton, List.reverse_append, List.reverse_singleton, List.singleton_append,
      List.getD_cons_succ, Nat.add_lt_add_iff_right]
    split
    · rfl
    · congr 1; omega

theorem sumClusters_nil {α : Type _} [AddCommMonoid α] (f : List Nat → α) : sumClusters [] f = f [] := by
  simp [sumClusters, indices]

theorem sumClusters_cons {α : Type _} [AddCommMonoid α] (K : Nat) (Ks : List Nat) (f : List Nat → α) :
    sumClusters (K :: Ks) f = ∑ k ∈ Finset.range K, sumClusters Ks fun ks => f (k :: ks) := by
  unfold sumClusters
  simp only [indices, List.map_flatMap, List.map_map]
  rw [list_sum_flatMap_range]
  rfl

theorem clusterCoord_append (ks l : List Nat) (p : Nat → Nat) : clusterCoord (ks ++ l) p = joinC l.length (coord l) (clusterCoord ks p) := by
  induction l using List.reverseRecOn generalizing ks with
  | nil => rw [List.append_nil]; funext k; simp [joinC]
  | append_singleton l a ih =>
    rw [← List.append_assoc, clusterCoord_snoc, ih]
    have := clusterCoord_snoc l a (clusterCoord ks p)
    unfold clusterCoord at this ⊢
    exact this.symm

theorem joinC_joinC (n m : Nat) (d c p : Nat → Nat) : joinC n d (joinC m c p) = joinC (n + m) (joinC n d c) p := by
  funext k
  unfold joinC
  by_cases h1 : k < n
  · simp [h1, show k < n + m by omega]
  · by_cases h2 : k < n + m
    · simp [h1, h2, show k - n < m by omega]
    · simp [h1, h2, show ¬ k - n < m by omega, Nat.sub_sub]

theorem validIn_clusterCoord {P Ks ks : List Nat} {p : Nat → Nat} (h : ks ∈ indices Ks) (hp : ValidIn P p) : ValidIn (P ++ Ks) (clusterCoord ks p) := by
  have := validIn_joinC (coord_valid h) hp
  rwa [← length_of_mem_indices h] at this

theorem snoc_mem_indices {Ks ks : List Nat} {K k : Nat} (h : ks ∈ indices Ks) (hk : k < K) : ks ++ [k] ∈ indices (Ks ++ [K]) := by
  induction Ks generalizing ks with
  | nil =>
    have : ks = [] := by simpa [indices] using h
    subst this
    exact mem_indices_cons.2 ⟨hk, by simp [indices]⟩
  | cons L Ks ih =>
    obtain ⟨a, j, rfl, ha, hj⟩ := mem_indices_cons'.1 h
    exact mem_indices_cons.2 ⟨ha, ih hj⟩

theorem insAxis_zero (K : Nat) (P : List Nat) : insAxis 0 K P = P ++ [K] := by simp [insAxis]

theorem insC_zero (k : Nat) (p : Nat → Nat) : insC 0 k p = consC k p := by funext j; cases j <;> simp [insC, consC]

section
variable {α : Type} [CommSemiring α] [DecidableEq α] {P dims : List Nat}

omit [DecidableEq α] in
theorem sumClusters_mul_left (Ks : List Nat) (f : List Nat → α) (x : α) : x * sumClusters Ks f = sumClusters Ks fun ks => x * f ks := by
  unfold sumClusters
  rw [List.sum_map_mul_left]

omit [DecidableEq α] in
theorem sumClusters_add (Ks : List Nat) (f h : List Nat → α) : sumClusters Ks f + sumClusters Ks h = sumClusters Ks fun ks => f ks + h ks := by
  unfold sumClusters
  rw [List.sum_map_add]

omit [DecidableEq α] in
theorem sumOver_sumClusters (s Ks : List Nat) (F : (Nat → Nat) → List Nat → α) :
    (sumOver s fun d => sumClusters Ks (F d)) = sumClusters Ks fun ks => sumOver s fun d => F d ks := by
  unfold sumClusters sumOver
  induction indices Ks with
  | nil => simp
  | cons k l ih =>
    simp only [List.map_cons, List.sum_cons, List.sum_map_add]
    rw [ih]

omit [DecidableEq α] in
theorem sum_sumClusters {ι : Type} (ts : List ι) (Ks : List Nat) (F : ι → List Nat → α) :
    (ts.map fun t => sumClusters Ks (F t)).sum = sumClusters Ks fun ks => (ts.map fun t => F t ks).sum := by
  unfold sumClusters
  induction indices Ks with
  | nil => simp
  | cons k l ih =>
    simp only [List.map_cons, List.sum_cons, List.sum_map_add]
    rw [ih]

/-- The arrays of the categorical variables: the clusters on the last axis, and plates that broadcast to those of the node -/
def FitsThetas (P : List Nat) (thetas : List (Arr α)) (Ks : List Nat) : Prop :=
  List.Forall₂ (fun z K => ∃ Sz, z.shape = Sz ++ [K] ∧ BroadcastsTo Sz P) thetas Ks

/-- The probabilities of the clusters of each variable for plate `p` -/
def probs (thetas : List (Arr α)) (p : Nat → Nat) : List (Nat → α) := thetas.map fun z k => z.at (consC k p)

omit [CommSemiring α] [DecidableEq α] in
theorem addUnitPlates_ok {z : Arr α} {Sz Ks0 : List Nat} {K : Nat} (hz : z.shape = Sz ++ [K]) (hS : BroadcastsTo Sz P) :
    (addUnitPlates Ks0.length z).shape = (Sz ++ List.replicate Ks0.length 1) ++ [K] ∧
    BroadcastsTo (Sz ++ List.replicate Ks0.length 1) (P ++ Ks0) ∧
    ∀ (k : Nat) (ks : List Nat) p, ks.length = Ks0.length → (addUnitPlates Ks0.length z).at (consC k (clusterCoord ks p)) = z.at (consC k p) := by
  have hsh : (addUnitPlates Ks0.length z).shape = (Sz ++ List.replicate Ks0.length 1) ++ [K] := by
    unfold addUnitPlates
    simp [hz]
  refine ⟨hsh, ⟨by simpa using hS.1, fun j => ?_⟩, fun k ks p hk => ?_⟩
  · rw [axisLen_append, axisLen_append, List.length_replicate]
    split
    · left
      unfold axisLen
      rw [List.reverse_replicate, List.getElem?_replicate]
      split <;> rfl
    · exact hS.2 _
  · show z.get _ = z.get _
    congr 1
    funext j
    rw [hsh, hz]
    unfold restrict
    by_cases h : j < 1
    · have : j = 0 := by omega
      subst this
      simp only [axisLen_append, List.length_singleton, Nat.lt_one_iff, if_true]
      rfl
    · have e1 : axisLen (Sz ++ List.replicate Ks0.length 1 ++ [K]) (j + Ks0.length) = axisLen Sz (j - 1) := by
        rw [axisLen_append, axisLen_append, List.length_singleton, List.length_replicate, if_neg (by omega), if_neg (by omega)]
        congr 1
        omega
      have e2 : axisLen (Sz ++ [K]) j = axisLen Sz (j - 1) := by
        rw [axisLen_append, List.length_singleton, if_neg h]
      rw [if_neg h, e1, e2]
      obtain ⟨j, rfl⟩ : ∃ i, j = i + 1 := ⟨j - 1, by omega⟩
      rw [show j + 1 + Ks0.length = (j + Ks0.length) + 1 by omega]
      simp only [consC]
      have : clusterCoord ks p (j + Ks0.length) = p j := by
        unfold clusterCoord
        rw [joinC_ge _ _ (by omega), hk, Nat.add_sub_cancel]
      rw [this]

theorem nestPhi_ok {thetas : List (Arr α)} {Ks : List Nat} (h : FitsThetas P thetas Ks) (params : List (Arr α)) {Phi : Arr α} (Ks0 : List Nat)
    (hx : BroadcastsTo Phi.shape (P ++ Ks0 ++ Ks ++ dims)) :
    ∃ v, nestPhi dims.length Phi (nestOf params (addAxesFrom addUnitPlates Ks0.length thetas)) = .ok v ∧ BroadcastsTo v.shape (P ++ Ks0 ++ dims) ∧
      ∀ ks d p, ks ∈ indices Ks0 → ValidIn dims d → ValidIn P p → v.at (joinC dims.length d (clusterCoord ks p)) =
        sumClusters Ks fun ks' => jointProbability (probs thetas p) ks' * Phi.at (joinC dims.length d (clusterCoord (ks ++ ks') p)) := by
  induction h generalizing Ks0 with
  | nil =>
    refine ⟨Phi, rfl, by simpa using hx, fun ks d p _ _ _ => ?_⟩
    rw [sumClusters_nil]
    simp [probs, jointProbability]
  | @cons z K thetas Ks hz _ ih =>
    obtain ⟨Sz, hz, hS⟩ := hz
    obtain ⟨v, hv, hvb, hvat⟩ := ih (Ks0 ++ [K]) (by simpa using hx)
    obtain ⟨hsh, hSb, hzat⟩ := addUnitPlates_ok (Ks0 := Ks0) hz hS
    obtain ⟨y, hy, hyb, hyat⟩ := C50_phi (g := 0) (dims := dims) (Nat.zero_le _) hsh hSb (Phi := v) (by rw [insAxis_zero]; simpa using hvb)
    refine ⟨y, ?_, hyb, fun ks d p hks hd hp => ?_⟩
    · rw [List.length_append, List.length_singleton] at hv
      simp only [addAxesFrom, nestOf, nestPhi]
      rw [hv]
      exact hy
    · rw [hyat d _ hd (validIn_clusterCoord hks hp), sumClusters_cons]
      refine Finset.sum_congr rfl fun k hk => ?_
      rw [hzat k ks p (length_of_mem_indices hks), insC_zero, ← clusterCoord_snoc, hvat _ d p (snoc_mem_indices hks (Finset.mem_range.1 hk)) hd hp,
        sumClusters_mul_left]
      simp [probs, jointProbability, mul_assoc]

theorem nestCgf_ok {thetas : List (Arr α)} {Ks : List Nat} (h : FitsThetas P thetas Ks) (params : List (Arr α)) {cgf : Arr α} (Ks0 : List Nat)
    (hx : BroadcastsTo cgf.shape (P ++ Ks0 ++ Ks)) :
    ∃ v, nestCgf cgf (nestOf params (addAxesFrom addUnitPlates Ks0.length thetas)) = .ok v ∧ BroadcastsTo v.shape (P ++ Ks0) ∧
      ∀ ks p, ks ∈ indices Ks0 → ValidIn P p → v.at (clusterCoord ks p) =
        sumClusters Ks fun ks' => jointProbability (probs thetas p) ks' * cgf.at (clusterCoord (ks ++ ks') p) := by
  induction h generalizing Ks0 with
  | nil =>
    refine ⟨cgf, rfl, by simpa using hx, fun ks p _ _ => ?_⟩
    rw [sumClusters_nil]
    simp [probs, jointProbability]
  | @cons z K thetas Ks hz _ ih =>
    obtain ⟨Sz, hz, hS⟩ := hz
    obtain ⟨v, hv, hvb, hvat⟩ := ih (Ks0 ++ [K]) (by simpa using hx)
    obtain ⟨hsh, hSb, hzat⟩ := addUnitPlates_ok (Ks0 := Ks0) hz hS
    obtain ⟨y, hy, hyb, hyat⟩ := C50_cgf (g := 0) (Nat.zero_le _) hsh hSb (cgf := v) (by rw [insAxis_zero]; simpa using hvb)
    refine ⟨y, ?_, hyb, fun ks p hks hp => ?_⟩
    · rw [List.length_append, List.length_singleton] at hv
      simp only [addAxesFrom, nestOf, nestCgf]
      rw [hv]
      exact hy
    · rw [hyat _ (validIn_clusterCoord hks hp), sumClusters_cons]
      refine Finset.sum_congr rfl fun k hk => ?_
      rw [hzat k ks p (length_of_mem_indices hks), insC_zero, ← clusterCoord_snoc, hvat _ p (snoc_mem_indices hks (Finset.mem_range.1 hk)) hp,
        sumClusters_mul_left]
      simp [probs, jointProbability, mul_assoc]

/-- What the messages are computed from, for plates `Q` of the node -/
structure LogTerm.FitsMulti (Q Ks : List Nat) (t : LogTerm α) : Prop where
  moments : ∃ S, t.u.shape = S ++ t.dims ∧ BroadcastsTo S Q
  parameters : BroadcastsTo t.phi.shape (Q ++ Ks ++ t.dims)

omit [DecidableEq α] [CommSemiring α] in
theorem mixUSelf_zero {u : Arr α} {S Q : List Nat} {K : Nat} (hu : u.shape = S ++ dims) (hS : BroadcastsTo S Q) :
    ∃ v, mixUSelf 0 dims.length u = .ok v ∧ (∃ S', v.shape = S' ++ dims ∧ BroadcastsTo S' (Q ++ [K])) ∧
      ∀ d q k, v.at (joinC dims.length d (consC k q)) = u.at (joinC dims.length d q) := by
  obtain ⟨v, hv, -, hvat⟩ := C50_moments_self (g := 0) (K := K) (Nat.zero_le _) hu hS
  refine ⟨v, hv, ⟨S ++ [1], ?_, ⟨by simpa using hS.1, fun k => ?_⟩⟩, fun d q k => ?_⟩
  · unfold mixUSelf npExpandDims at hv
    rw [if_pos (by rw [hu]; simp)] at hv
    rw [← Except.ok.inj hv]
    simp [hu]
  · rw [axisLen_append, axisLen_append]
    simp only [List.length_singleton]
    split
    · left
      have : k = 0 := by omega
      subst this
      rfl
    · exact hS.2 _
  · have := hvat d q k
    rwa [insC_zero] at this

theorem nestMessage_ok {thetas : List (Arr α)} {Ks : List Nat} (h : FitsThetas P thetas Ks) (params : List (Arr α)) {cgf : Arr α} (Ks0 : List Nat)
    (hc : BroadcastsTo cgf.shape (P ++ Ks0 ++ Ks)) (ts : List (LogTerm α)) (hts : ∀ t ∈ ts, t.FitsMulti (P ++ Ks0) Ks) (j K : Nat)
    (hj : Ks[j]? = some K) :
    ∃ y, nestMessage cgf j (ts.map fun t => (t.dims.length, t.u, t.phi)) (nestOf params (addAxesFrom addUnitPlates Ks0.length thetas)) = .ok y ∧
      BroadcastsTo y.shape (P ++ Ks0 ++ Ks.take j ++ [K]) ∧
      ∀ ks ks' k p, ks ∈ indices Ks0 → ks' ∈ indices (Ks.take j) → k < K → ValidIn P p → y.at (consC k (clusterCoord (ks ++ ks') p)) =
        jointProbability (probs (thetas.take j) p) ks' * sumClusters (Ks.drop (j + 1)) fun ks'' =>
          jointProbability (probs (thetas.drop (j + 1)) p) ks'' * (cgf.at (clusterCoord (ks ++ ks' ++ k :: ks'') p) +
            (ts.map fun t => sumOver t.dims fun d => t.phi.at (joinC t.dims.length d (clusterCoord (ks ++ ks' ++ k :: ks'') p)) *
              t.u.at (joinC t.dims.length d (clusterCoord ks p))).sum) := by
  induction h generalizing Ks0 ts j with
  | nil => simp at hj
  | @cons z K0 thetas Ks hz hrest ih =>
    obtain ⟨Sz, hz, hS⟩ := hz
    obtain ⟨hsh, hSb, hzat⟩ := addUnitPlates_ok (Ks0 := Ks0) hz hS
    cases j with
    | zero =>
      obtain rfl : K0 = K := by simpa using hj
      obtain ⟨c, hcok, hcb, hcat⟩ := nestCgf_ok hrest params (Ks0 ++ [K0]) (by simpa using hc)
      have hPhi : ∀ t : LogTerm α, ∃ v, t ∈ ts → nestPhi t.dims.length t.phi (nestOf params (addAxesFrom addUnitPlates (Ks0 ++ [K0]).length thetas)) = .ok v ∧
          BroadcastsTo v.shape (P ++ (Ks0 ++ [K0]) ++ t.dims) ∧
          ∀ ks d p, ks ∈ indices (Ks0 ++ [K0]) → ValidIn t.dims d → ValidIn P p → v.at (joinC t.dims.length d (clusterCoord ks p)) =
            sumClusters Ks fun ks' => jointProbability (probs thetas p) ks' * t.phi.at (joinC t.dims.length d (clusterCoord (ks ++ ks') p)) := by
        intro t
        by_cases ht : t ∈ ts
        · obtain ⟨v, hv⟩ := nestPhi_ok hrest params (Ks0 ++ [K0]) (Phi := t.phi) (dims := t.dims) (by simpa using (hts t ht).parameters)
          exact ⟨v, fun _ => hv⟩
        · exact ⟨t.u, fun h => absurd h ht⟩
      choose V hV using hPhi
      obtain ⟨y, hy, hyb, hyat⟩ := C50_message_selector_partial (P := P ++ Ks0) (K := K0) (ts.map fun t => ⟨t.dims, t.u, V t⟩) (fun t ht => by
        obtain ⟨t0, h0, rfl⟩ := List.mem_map.1 ht
        refine ⟨(hts t0 h0).moments, ?_⟩
        rw [insAxis_zero]
        simpa using (hV t0 h0).2.1) (cgf := c) (by rw [insAxis_zero]; simpa using hcb)
      refine ⟨y, ?_, by simpa using hyb, fun ks ks' k p hks hks' hk hp => ?_⟩
      · simp only [addAxesFrom, nestOf, nestMessage]
        rw [List.length_append, List.length_singleton] at hcok
        rw [hcok]
        have hm : (ts.map fun t => (t.dims.length, t.u, t.phi)).mapM (fun t => do
            return (t.1, t.2.1, ← nestPhi t.1 t.2.2 (nestOf params (addAxesFrom addUnitPlates (Ks0.length + 1) thetas)))) =
            Except.ok (ε := PyErr) ((ts.map fun t => (⟨t.dims, t.u, V t⟩ : LogTerm α)).map fun t => (t.dims.length, t.u, t.phi)) := by
          rw [List.mapM_map, List.map_map]
          refine mapM_ok_of _ _ _ fun t ht => ?_
          have := (hV t ht).1
          rw [List.length_append, List.length_singleton] at this
          simp only [Function.comp]
          rw [this]
          rfl
        simp only [bind, Except.bind] at hm ⊢
        rw [hm]
        exact hy
      · obtain rfl : ks' = [] := by simpa [indices] using hks'
        rw [List.append_nil, hyat k _ hk (validIn_clusterCoord hks hp), insC_zero, ← clusterCoord_snoc, hcat _ p (snoc_mem_indices hks hk) hp]
        simp only [List.take_zero, List.drop_succ_cons, List.drop_zero, List.map_map, Function.comp_def]
        have e : ∀ t ∈ ts, (sumOver t.dims fun d => (V t).at (joinC t.dims.length d (clusterCoord (ks ++ [k]) p)) * t.u.at (joinC t.dims.length d (clusterCoord ks p))) =
            sumClusters Ks fun ks' => jointProbability (probs thetas p) ks' *
              sumOver t.dims fun d => t.phi.at (joinC t.dims.length d (clusterCoord (ks ++ k :: ks') p)) * t.u.at (joinC t.dims.length d (clusterCoord ks p)) := by
          intro t ht
          have e1 : ∀ d, ValidIn t.dims d → (V t).at (joinC t.dims.length d (clusterCoord (ks ++ [k]) p)) * t.u.at (joinC t.dims.length d (clusterCoord ks p)) =
              sumClusters Ks fun ks' => jointProbability (probs thetas p) ks' *
                (t.phi.at (joinC t.dims.length d (clusterCoord (ks ++ k :: ks') p)) * t.u.at (joinC t.dims.length d (clusterCoord ks p))) := by
            intro d hd
            rw [(hV t ht).2.2 _ d p (snoc_mem_indices hks hk) hd hp, mul_comm, sumClusters_mul_left]
            congr 1
            funext ks'
            rw [List.append_assoc, List.singleton_append]
            ring
          rw [sumOver_congr_valid e1, sumOver_sumClusters]
          congr 1
          funext ks'
          rw [sumOver_mul_left]
        rw [List.map_congr_left e, sum_sumClusters, sumClusters_add]
        simp only [probs, List.map_nil, jointProbability, List.zipWith_nil_left, List.prod_nil, one_mul]
        congr 1
        funext ks'
        rw [List.append_assoc, List.singleton_append, List.sum_map_mul_left, mul_add]
    | succ j =>
      have hj' : Ks[j]? = some K := by simpa using hj
      have hjl : j < Ks.length := (List.getElem?_eq_some_iff.1 hj').1
      have hU : ∀ t : LogTerm α, ∃ v, t ∈ ts → mixUSelf 0 t.dims.length t.u = .ok v ∧ (∃ S', v.shape = S' ++ t.dims ∧ BroadcastsTo S' (P ++ Ks0 ++ [K0])) ∧
          ∀ d q k, v.at (joinC t.dims.length d (consC k q)) = t.u.at (joinC t.dims.length d q) := by
        intro t
        by_cases ht : t ∈ ts
        · obtain ⟨S, hu, hSu⟩ := (hts t ht).moments
          obtain ⟨v, hv⟩ := mixUSelf_zero (K := K0) hu hSu
          exact ⟨v, fun _ => hv⟩
        · exact ⟨t.u, fun h => absurd h ht⟩
      choose U hU using hU
      obtain ⟨m, hm, hmb, hmat⟩ := ih (Ks0 ++ [K0]) (by simpa using hc) (ts.map fun t => ⟨t.dims, U t, t.phi⟩) (fun t ht => by
        obtain ⟨t0, h0, rfl⟩ := List.mem_map.1 ht
        refine ⟨?_, by simpa using (hts t0 h0).parameters⟩
        obtain ⟨S', h1, h2⟩ := (hU t0 h0).2.1
        exact ⟨S', h1, by simpa using h2⟩) j hj'
      have hlt : (Ks.take j).length = j := by rw [List.length_take]; omega
      obtain ⟨y, hy, hyb, hyat⟩ := C50_message_parameters (g := 0) (P := P ++ Ks0) (K := K0) (dims := [K]) (extra := Ks.take j) (Nat.zero_le _) hsh hSb (m := m)
        (by rw [insAxis_zero]; simpa using hmb)
      refine ⟨y, ?_, by rw [insAxis_zero] at hyb; simpa using hyb, fun ks ks' k p hks hks' hk hp => ?_⟩
      · simp only [addAxesFrom, nestOf, nestMessage]
        have hmm : (ts.map fun t => (t.dims.length, t.u, t.phi)).mapM (fun t => do
            return (t.1, ← mixUSelf 0 t.1 t.2.1, t.2.2)) =
            Except.ok (ε := PyErr) ((ts.map fun t => (⟨t.dims, U t, t.phi⟩ : LogTerm α)).map fun t => (t.dims.length, t.u, t.phi)) := by
          rw [List.mapM_map, List.map_map]
          refine mapM_ok_of _ _ _ fun t ht => ?_
          simp only [Function.comp]
          rw [(hU t ht).1]
          rfl
        simp only [bind, Except.bind] at hmm ⊢
        rw [hmm]
        rw [List.length_append, List.length_singleton] at hm
        simp only
        rw [hm]
        simp only
        rw [hlt] at hy
        exact hy
      · rw [List.take_succ_cons] at hks'
        obtain ⟨k0, ks', rfl, hk0, hks'⟩ := mem_indices_cons'.1 hks'
        have hc1 : consC k (clusterCoord (ks ++ k0 :: ks') p) = joinC (Ks.take j ++ [K]).length (coord (ks' ++ [k])) (insC 0 k0 (clusterCoord ks p)) := by
          rw [← clusterCoord_snoc, insC_zero, ← clusterCoord_snoc, show ks ++ k0 :: ks' ++ [k] = (ks ++ [k0]) ++ (ks' ++ [k]) by simp, clusterCoord_append]
          congr 1
          simp [length_of_mem_indices hks']
        rw [hc1, hyat, ← hc1, hzat k0 ks p (length_of_mem_indices hks)]
        have := hmat (ks ++ [k0]) ks' k p (snoc_mem_indices hks hk0) hks' hk hp
        rw [show ks ++ [k0] ++ ks' = ks ++ k0 :: ks' by simp] at this
        rw [this]
        simp only [List.take_succ_cons, List.drop_succ_cons, List.map_map, Function.comp_def]
        rw [← mul_assoc]
        congr 1
        congr 1
        funext ks''
        congr 1
        congr 1
        congr 1
        refine List.map_congr_left fun t ht => ?_
        congr 1
        funext d
        rw [clusterCoord_snoc, (hU t ht).2.2]

theorem nestOf_depth {N : Type} (params zs : List N) : (nestOf params zs).depth = zs.length := by
  induction zs with
  | nil => rfl
  | cons z zs ih => simp [nestOf, MixNest.depth, ih]

theorem nestMessageParam_ok {thetas : List (Arr α)} {Ks : List Nat} (h : FitsThetas P thetas Ks) (params : List (Arr α)) {m : Arr α} {extra : List Nat}
    (Ks0 : List Nat) (hm : BroadcastsTo m.shape (P ++ Ks0 ++ Ks ++ extra ++ dims)) :
    ∃ y, nestMessageParam extra.length dims.length m (nestOf params (addAxesFrom addUnitPlates Ks0.length thetas)) = .ok y ∧
      BroadcastsTo y.shape (P ++ Ks0 ++ Ks ++ extra ++ dims) ∧
      ∀ ks ks' d p, ks ∈ indices Ks0 → ks' ∈ indices Ks → y.at (joinC (extra ++ dims).length d (clusterCoord (ks ++ ks') p)) =
        jointProbability (probs thetas p) ks' * m.at (joinC (extra ++ dims).length d (clusterCoord (ks ++ ks') p)) := by
  induction h generalizing Ks0 with
  | nil =>
    refine ⟨m, rfl, hm, fun ks ks' d p _ hks' => ?_⟩
    simp [probs, jointProbability]
  | @cons z K thetas Ks hz hrest ih =>
    obtain ⟨Sz, hz, hS⟩ := hz
    obtain ⟨hsh, hSb, hzat⟩ := addUnitPlates_ok (Ks0 := Ks0) hz hS
    obtain ⟨v, hv, hvb, hvat⟩ := ih (Ks0 ++ [K]) (by simpa using hm)
    obtain ⟨y, hy, hyb, hyat⟩ := C50_message_parameters (g := 0) (P := P ++ Ks0) (K := K) (dims := dims) (extra := Ks ++ extra) (Nat.zero_le _) hsh hSb (m := v)
      (by rw [insAxis_zero]; simpa using hvb)
    refine ⟨y, ?_, by rw [insAxis_zero] at hyb; simpa using hyb, fun ks ks' d p hks hks' => ?_⟩
    · rw [List.length_append, List.length_singleton] at hv
      simp only [addAxesFrom, nestOf, nestMessageParam]
      rw [hv, nestOf_depth, addAxesFrom_length, hrest.length_eq, ← List.length_append]
      exact hy
    · obtain ⟨k, ks', rfl, hk, hks'⟩ := mem_indices_cons'.1 hks'
      have hc1 : joinC (extra ++ dims).length d (clusterCoord (ks ++ k :: ks') p) =
          joinC (Ks ++ extra ++ dims).length (joinC (extra ++ dims).length d (coord ks')) (insC 0 k (clusterCoord ks p)) := by
        rw [insC_zero, ← clusterCoord_snoc, show ks ++ k :: ks' = (ks ++ [k]) ++ ks' by simp, clusterCoord_append, joinC_joinC]
        congr 1
        simp [length_of_mem_indices hks']
        omega
      rw [hc1, hyat, ← hc1, hzat k ks p (length_of_mem_indices hks)]
      have := hvat (ks ++ [k]) ks' d p (snoc_mem_indices hks hk) hks'
      rw [show ks ++ [k] ++ ks' = ks ++ k :: ks' by simp] at this
      rw [this, ← mul_assoc]
      simp [probs, jointProbability]

/-! ### The claims -/

theorem multi_nest {thetas : List (Arr α)} (hne : thetas ≠ []) (params : List (Arr α)) :
    nestConstructor (multiMixtureArgs addUnitPlates thetas params) = .ok (nestOf params (addAxesFrom addUnitPlates ([] : List Nat).length thetas)) := by
  rw [C89_nesting, if_neg hne]
  rfl

/-- **C89** The natural parameters are those of the mixed distribution, averaged over the clusters of all variables as if these were
independent. -/
theorem C89_phi {thetas : List (Arr α)} {Ks : List Nat} (h : FitsThetas P thetas Ks) (hne : thetas ≠ []) (params : List (Arr α)) {Phi : Arr α}
    (hx : BroadcastsTo Phi.shape (P ++ Ks ++ dims)) :
    ∃ n v, nestConstructor (multiMixtureArgs addUnitPlates thetas params) = .ok n ∧ nestPhi dims.length Phi n = .ok v ∧
      BroadcastsTo v.shape (P ++ dims) ∧
      ∀ d p, ValidIn dims d → ValidIn P p → v.at (joinC dims.length d p) =
        sumClusters Ks fun ks => jointProbability (probs thetas p) ks * Phi.at (joinC dims.length d (clusterCoord ks p)) := by
  obtain ⟨v, hv, hvb, hvat⟩ := nestPhi_ok h params (Phi := Phi) (dims := dims) [] (by simpa using hx)
  refine ⟨_, v, multi_nest hne params, hv, by simpa using hvb, fun d p hd hp => ?_⟩
  have := hvat [] d p (by simp [indices]) hd hp
  rwa [clusterCoord_nil] at this

/-- **C89** Likewise the normalisation. -/
theorem C89_cgf {thetas : List (Arr α)} {Ks : List Nat} (h : FitsThetas P thetas Ks) (hne : thetas ≠ []) (params : List (Arr α)) {cgf : Arr α}
    (hx : BroadcastsTo cgf.shape (P ++ Ks)) :
    ∃ n v, nestConstructor (multiMixtureArgs addUnitPlates thetas params) = .ok n ∧ nestCgf cgf n = .ok v ∧ BroadcastsTo v.shape P ∧
      ∀ p, ValidIn P p → v.at p = sumClusters Ks fun ks => jointProbability (probs thetas p) ks * cgf.at (clusterCoord ks p) := by
  obtain ⟨v, hv, hvb, hvat⟩ := nestCgf_ok h params (cgf := cgf) [] (by simpa using hx)
  refine ⟨_, v, multi_nest hne params, hv, by simpa using hvb, fun p hp => ?_⟩
  have := hvat [] p (by simp [indices]) hp
  rwa [clusterCoord_nil] at this

/-- **C89** The message to the variable number `j`: for every cluster `k` of it and all clusters `ks` of the variables before it, the expected
log-density, averaged over the clusters of the variables after it and weighed by the probability of `ks`.  The axes of `ks` are unit plates of
the variable, over which messages are summed. -/
theorem C89_message_variable {thetas : List (Arr α)} {Ks : List Nat} (h : FitsThetas P thetas Ks) (hne : thetas ≠ []) (params : List (Arr α))
    {cgf : Arr α} (hc : BroadcastsTo cgf.shape (P ++ Ks)) (ts : List (LogTerm α)) (hts : ∀ t ∈ ts, t.FitsMulti P Ks) {j K : Nat}
    (hj : Ks[j]? = some K) :
    ∃ n y, nestConstructor (multiMixtureArgs addUnitPlates thetas params) = .ok n ∧
      nestMessage cgf j (ts.map fun t => (t.dims.length, t.u, t.phi)) n = .ok y ∧ BroadcastsTo y.shape (P ++ Ks.take j ++ [K]) ∧
      ∀ ks k p, ks ∈ indices (Ks.take j) → k < K → ValidIn P p → y.at (consC k (clusterCoord ks p)) =
        jointProbability (probs (thetas.take j) p) ks * sumClusters (Ks.drop (j + 1)) fun ks' =>
          jointProbability (probs (thetas.drop (j + 1)) p) ks' * (cgf.at (clusterCoord (ks ++ k :: ks') p) +
            (ts.map fun t => sumOver t.dims fun d => t.phi.at (joinC t.dims.length d (clusterCoord (ks ++ k :: ks') p)) *
              t.u.at (joinC t.dims.length d p)).sum) := by
  obtain ⟨y, hy, hyb, hyat⟩ := nestMessage_ok h params [] (cgf := cgf) (by simpa using hc) ts (fun t ht => by simpa using hts t ht) j K hj
  refine ⟨_, y, multi_nest hne params, hy, by simpa using hyb, fun ks k p hks hk hp => ?_⟩
  have := hyat [] ks k p (by simp [indices]) hks hk hp
  simpa only [List.nil_append, clusterCoord_nil] using this

/-- **C89** The message to a parameter of the mixed distribution: that of the mixed distribution weighed by the probabilities of the clusters. -/
theorem C89_message_parameter {thetas : List (Arr α)} {Ks : List Nat} (h : FitsThetas P thetas Ks) (hne : thetas ≠ []) (params : List (Arr α))
    {m : Arr α} {extra : List Nat} (hm : BroadcastsTo m.shape (P ++ Ks ++ extra ++ dims)) :
    ∃ n y, nestConstructor (multiMixtureArgs addUnitPlates thetas params) = .ok n ∧ nestMessageParam extra.length dims.length m n = .ok y ∧
      BroadcastsTo y.shape (P ++ Ks ++ extra ++ dims) ∧
      ∀ ks d p, ks ∈ indices Ks → y.at (joinC (extra ++ dims).length d (clusterCoord ks p)) =
        jointProbability (probs thetas p) ks * m.at (joinC (extra ++ dims).length d (clusterCoord ks p)) := by
  obtain ⟨y, hy, hyb, hyat⟩ := nestMessageParam_ok h params (m := m) (extra := extra) (dims := dims) [] (by simpa using hm)
  refine ⟨_, y, multi_nest hne params, hy, by simpa using hyb, fun ks d p hks => ?_⟩
  simpa only [List.nil_append] using hyat [] ks d p (by simp [indices]) hks

omit [DecidableEq α] in
theorem sumClusters_certain {q : List (Nat → α)} {Ks cs : List Nat} (hq : List.Forall₂ (fun q c => ∀ k, q k = if k = c then 1 else 0) q cs)
    (hc : cs ∈ indices Ks) (f : List Nat → α) : (sumClusters Ks fun ks => jointProbability q ks * f ks) = f cs := by
  induction hq generalizing Ks f with
  | nil =>
    have : Ks = [] := List.length_eq_zero_iff.1 (by simpa using (length_of_mem_indices hc).symm)
    subst this
    simp [sumClusters_nil, jointProbability]
  | @cons q c qs cs h _ ih =>
    cases Ks with
    | nil => simp [indices] at hc
    | cons K Ks =>
      obtain ⟨hcK, hcs⟩ := mem_indices_cons.1 hc
      rw [sumClusters_cons, Finset.sum_eq_single_of_mem c (Finset.mem_range.2 hcK) fun k _ hk => ?_]
      · rw [← ih hcs fun ks => f (c :: ks)]
        congr 1
        funext ks
        simp [jointProbability, h c]
      · have : (fun ks => jointProbability (q :: qs) (k :: ks) * f (k :: ks)) = fun _ => (0 : α) := by
          funext ks
          simp [jointProbability, h k, hk]
        rw [this]
        simp [sumClusters]

/-- **C89** If the clusters are known to be `cs` for plate `p`, the natural parameters are those of these clusters. -/
theorem C89_certain {thetas : List (Arr α)} {Ks : List Nat} (h : FitsThetas P thetas Ks) (hne : thetas ≠ []) (params : List (Arr α)) {Phi : Arr α}
    (hx : BroadcastsTo Phi.shape (P ++ Ks ++ dims)) :
    ∃ n v, nestConstructor (multiMixtureArgs addUnitPlates thetas params) = .ok n ∧ nestPhi dims.length Phi n = .ok v ∧
      ∀ cs d p, cs ∈ indices Ks → ValidIn dims d → ValidIn P p →
        List.Forall₂ (fun z c => ∀ k, z.at (consC k p) = if k = c then 1 else 0) thetas cs →
        v.at (joinC dims.length d p) = Phi.at (joinC dims.length d (clusterCoord cs p)) := by
  obtain ⟨n, v, hn, hv, -, hvat⟩ := C89_phi h hne params hx
  refine ⟨n, v, hn, hv, fun cs d p hcs hd hp hz => ?_⟩
  rw [hvat d p hd hp, sumClusters_certain (q := probs thetas p) (cs := cs) ?_ hcs]
  unfold probs
  rw [List.forall₂_map_left_iff]
  exact hz

end

/-! ### Examples -/

private def thA : Arr Int := ⟨[2, 2], fun c => (c 0 : Int) + 2 * c 1 + 1⟩
private def thB : Arr Int := ⟨[3], fun c => (c 0 : Int) + 1⟩
private def phiAB : Arr Int := ⟨[2, 3], fun c => 10 * (c 1 : Int) + c 0⟩

/-- two plates, variables with two and three clusters, the second the same for all plates -/
example : FitsThetas [2] [thA, thB] [2, 3] ∧ BroadcastsTo phiAB.shape ([2] ++ [2, 3] ++ []) := by
  refine ⟨.cons ⟨[2], rfl, BroadcastsTo.refl _⟩ (.cons ⟨[], rfl, ⟨by simp, fun k => .inl (by simp [axisLen])⟩⟩ .nil), ⟨by decide, fun k => ?_⟩⟩
  match k with
  | 0 => exact .inr rfl
  | 1 => exact .inr rfl
  | k + 2 => exact .inl (by simp [phiAB, axisLen])

/-- the natural parameter of plate 1 is `3 (1·0 + 2·1 + 3·2) + 4 (1·10 + 2·11 + 3·12)` -/
example : ((do nestPhi 0 phiAB (← nestConstructor (multiMixtureArgs addUnitPlates [thA, thB] []))) : Except PyErr (Arr Int)).toOption.map
    (fun y : Arr Int => (y.shape, y.at (coord [1]))) = some ([2], 3 * 8 + 4 * 68) := by decide +kernel

/-- the message to the second variable has the clusters of the first one as an axis -/
example : ((do nestMessage phiAB 1 [] (← nestConstructor (multiMixtureArgs addUnitPlates [thA, thB] []))) : Except PyErr (Arr Int)).toOption.map
    (fun y : Arr Int => (y.shape, y.at (coord [1, 1, 2]))) = some ([2, 2, 3], 4 * 12) := by decide +kernel

example : nestConstructor (multiMixtureArgs (fun i (x : Nat × Nat) => (x.1, i)) [(7, 0), (8, 0), (9, 0)] [(5, 0)]) =
    .ok (.mixture (7, 0) (.mixture (8, 1) (.mixture (9, 2) (.mixed [(5, 0)])))) := by
  rw [C89_nesting]
  rfl

end Verif
