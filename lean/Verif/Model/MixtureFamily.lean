import Verif.Model.Families

/-!
# The mixture of a distribution as a family of a network

`MixtureDistribution` of `mixture.py` lines 25-345 at one plate element, for any distribution `F` and any finite set `κ`
of clusters.  Which axis holds the clusters, and how the arrays are broadcast, is the subject of `Model/Mixture`.
-/

namespace Verif

/-- the index sets of the parents of a mixture: `none` is the selector, `some k` the parent `k` of the mixed distribution,
whose moments are given for every cluster -/
def MixSlot (F : Family) (κ : Type) : Option F.K → Type
  | none => κ
  | some k => F.P k × κ

instance (F : Family) (κ : Type) [Fintype κ] : ∀ k, Fintype (MixSlot F κ k)
  | none => inferInstanceAs (Fintype κ)
  | some k => inferInstanceAs (Fintype (F.P k × κ))

/-- the moments of the parents of the mixed distribution in one cluster -/
def mixRaw {F : Family} {κ : Type} (pa : ∀ k, MixSlot F κ k → ℝ) (c : κ) : ∀ k, F.P k → ℝ :=
  fun k j => pa (some k) (j, c)

section
variable (F : Family) (κ : Type) [Fintype κ]

/-- `compute_phi_from_parents`, lines 180-249: the parameters weighed by the selector -/
noncomputable def mixFPhi (pa : ∀ k, MixSlot F κ k → ℝ) (i : F.I) : ℝ :=
  ∑ c : κ, (pa none : κ → ℝ) c * F.phiP (mixRaw pa c) i

/-- `compute_cgf_from_parents`, lines 258-293 -/
noncomputable def mixFCgf (pa : ∀ k, MixSlot F κ k → ℝ) : ℝ := ∑ c : κ, (pa none : κ → ℝ) c * F.cgfP (mixRaw pa c)

/-- `compute_message_to_parent`, lines 57-107: to the selector, the expected log-density of every cluster without `f` -/
noncomputable def mixFMsgZ (u : F.I → ℝ) (pa : ∀ k, MixSlot F κ k → ℝ) (c : κ) : ℝ :=
  F.cgfP (mixRaw pa c) + ∑ i, F.phiP (mixRaw pa c) i * u i

/-- `compute_message_to_parent`, lines 109-160: to a parent of the mixed distribution -/
noncomputable def mixFMsg (k : F.K) (u : F.I → ℝ) (pa : ∀ k, MixSlot F κ k → ℝ) (jc : F.P k × κ) : ℝ :=
  (pa none : κ → ℝ) jc.2 * F.msg k u (mixRaw pa jc.2) jc.1

/-- `MixtureDistribution`; moments and normaliser are those of the mixed distribution, lines 251-256. -/
noncomputable def mixtureFamily : Family where
  I := F.I
  K := Option F.K
  P := MixSlot F κ
  phiP := mixFPhi F κ
  cgfP := mixFCgf F κ
  msg := fun k u pa => match k with
    | none => mixFMsgZ F κ u pa
    | some k => mixFMsg F κ k u pa
  mom := F.mom
  cgf := F.cgf

end

end Verif
