import Verif.Model.Network
import Verif.Model.GaussianDist

/-!
# The distributions as families of a network
-/

namespace Verif

/-- `GammaDistribution`: slot 0 is the shape, slot 1 the rate -/
noncomputable def gammaFamily : Family where
  I := Fin 2
  K := Fin 2
  P := fun _ => Fin 2
  phiP := fun pa => gammaPhi (pa 0) (pa 1)
  cgfP := fun pa => gammaCgfP (pa 0) (pa 1)
  msg := fun k u pa => if k = 0 then gammaMsgA u (pa 1) else gammaMsgB u (pa 0)
  mom := gammaMoments
  cgf := gammaCgf

/-- `PoissonDistribution` -/
noncomputable def poissonFamily : Family where
  I := Fin 1
  K := Unit
  P := fun _ => Fin 2
  phiP := fun pa => poissonPhi (pa ())
  cgfP := fun pa => poissonCgfP (pa ())
  msg := fun _ u _ => poissonMsg u
  mom := poissonMoments
  cgf := poissonCgf

/-- `BinomialDistribution` of `n` trials (`BernoulliDistribution` for one) -/
noncomputable def binomialFamily (n : ℕ) : Family where
  I := Fin 1
  K := Unit
  P := fun _ => Fin 2
  phiP := fun pa => binomialPhi (pa ())
  cgfP := fun pa => binomialCgfP n (pa ())
  msg := fun _ u _ => binomialMsg n u
  mom := binomialMoments n
  cgf := binomialCgf n

section
variable (ι : Type) [Fintype ι] [DecidableEq ι]

/-- `DirichletDistribution` (`BetaDistribution` for two categories) -/
noncomputable def dirichletFamily : Family where
  I := ι
  K := Unit
  P := fun _ => Option ι
  phiP := fun pa => dirichletPhi (pa ())
  cgfP := fun pa => dirichletCgfP (pa ())
  msg := fun _ u _ => dirichletMsg u
  mom := dirichletMoments
  cgf := dirichletCgf

/-- `MultinomialDistribution` of `n` trials (`CategoricalDistribution` for one) -/
noncomputable def multinomialFamily (n : ℕ) : Family where
  I := ι
  K := Unit
  P := fun _ => ι
  phiP := fun pa => multinomialPhi (pa ())
  cgfP := fun pa => multinomialCgfP (pa ())
  msg := fun _ u _ => multinomialMsg u
  mom := multinomialMoments n
  cgf := multinomialCgf n

/-- `GaussianDistribution` -/
noncomputable def gaussianFamily : Family where
  I := GIx ι
  K := Unit
  P := fun _ => GWIx ι
  phiP := fun pa => gaussianPhi (pa ())
  cgfP := fun pa => gaussianCgfP (pa ())
  msg := fun _ u _ => gaussianMsg u
  mom := gaussianMoments
  cgf := gaussianCgf

/-- `GaussianARDDistribution` with at least one variable axis -/
noncomputable def ardFamily : Family where
  I := GIx ι
  K := Unit
  P := fun _ => ι × Fin 4
  phiP := fun pa => ardPhi (pa ())
  cgfP := fun pa => ardCgfP (pa ())
  msg := fun _ u _ => ardMsg u
  mom := gaussianMoments
  cgf := gaussianCgf

/-- `GaussianARDDistribution` without variable axes -/
noncomputable def ard0Family : Family where
  I := Fin 2
  K := Unit
  P := fun _ => Fin 4
  phiP := fun pa => ard0Phi (pa ())
  cgfP := fun pa => ard0CgfP (pa ())
  msg := fun _ u _ => ard0Msg u
  mom := ardMoments0
  cgf := ardCgf0

/-- the index sets of the parents of `GaussianGammaDistribution`: `none` is the mean and precision, `some 0` the shape,
`some 1` the rate -/
def GGSlot : Option (Fin 2) → Type
  | none => GWIx ι
  | some _ => Fin 2

instance : ∀ k, Fintype (GGSlot ι k)
  | none => inferInstanceAs (Fintype (GWIx ι))
  | some _ => inferInstanceAs (Fintype (Fin 2))

/-- `GaussianGammaDistribution` -/
noncomputable def gaussianGammaFamily : Family where
  I := GGIx ι
  K := Option (Fin 2)
  P := GGSlot ι
  phiP := fun pa => ggPhi (pa none) (pa (some 0)) (pa (some 1))
  cgfP := fun pa => ggCgfP (pa none) (pa (some 0)) (pa (some 1))
  msg := fun k u pa => match k with
    | none => ggMsg0 u
    | some 0 => ggMsg1 u (pa (some 1))
    | some 1 => ggMsg2 u (pa (some 0))
  mom := ggMoments
  cgf := ggCgf

/-- `WishartDistribution` with a fixed number of degrees of freedom -/
noncomputable def wishartFamily (un : Fin 2 → ℝ) : Family where
  I := WIx ι
  K := Unit
  P := fun _ => WIx ι
  phiP := fun pa => wishartPhi un (pa ())
  cgfP := fun pa => wishartCgfP un (pa ())
  msg := fun _ u _ => wishartMsgV u un
  mom := wishartMoments
  cgf := wishartCgf

end

end Verif
