import Verif.Spec.GammaArrays
import Verif.Spec.GaussianArrays
import Verif.Spec.Linalg

/-!
# Rotated and translated arrays
-/

namespace Verif.Spec
open Matrix

/-- The array `Y` holds on plate `p` the array `X` over the axes `a, n, b` with its axis of length `n` multiplied by the matrix `R`,
`Y[.., i, ..] = ∑ⱼ R[i, j] X[.., j, ..]`. -/
def AxisRotated (R : Arr ℝ) (a b p : List Nat) (m n : Nat) (X Y : Arr ℝ) : Prop :=
  ∀ x ∈ indices a, ∀ i < m, ∀ z ∈ indices b,
    Y.at (coord (p ++ (x ++ i :: z))) = ∑ j ∈ Finset.range n, R.at (coord [i, j]) * X.at (coord (p ++ (x ++ j :: z)))

/-- The same for both sides of a covariance array. -/
def AxesRotated (R : Arr ℝ) (a b p : List Nat) (m n : Nat) (C Y : Arr ℝ) : Prop :=
  ∀ x ∈ indices a, ∀ i < m, ∀ z ∈ indices b, ∀ x' ∈ indices a, ∀ i' < m, ∀ z' ∈ indices b,
    Y.at (coord (p ++ (x ++ i :: z) ++ (x' ++ i' :: z'))) = ∑ j ∈ Finset.range n, ∑ j' ∈ Finset.range n,
      R.at (coord [i, j]) * R.at (coord [i', j']) * C.at (coord (p ++ (x ++ j :: z) ++ (x' ++ j' :: z')))

/-- The optional arguments `inv` and `logdet` of a rotation, if they are given, are the inverse and the logarithm of the absolute
value of the determinant of the `n × n` matrix `R`. -/
structure RotationArgs (n : Nat) (R : Arr ℝ) (inv logdet : Option (Arr ℝ)) : Prop where
  shape : R.shape = [n, n]
  invertible : (matrixOf R [] [n] [n]).det ≠ 0
  inv : ∀ V, inv = some V → V.shape = [n, n] ∧ matrixOf V [] [n] [n] * matrixOf R [] [n] [n] = 1
  logdet : ∀ l, logdet = some l → l.shape = [] ∧ l.at (coord []) = Real.log |(matrixOf R [] [n] [n]).det|

/-- What a Gaussian node with plates `P` and a variable over the axes `s` stores is consistent: the arrays have the axes of the node,
and the moments and the cumulant function are those of the natural parameters on every plate. -/
structure GaussNodeOn (P s : List Nat) (phi0 phi1 u0 u1 g : Arr ℝ) : Prop where
  s_phi0 : PlatesDims phi0.shape P s
  s_phi1 : PlatesDims phi1.shape P (s ++ s)
  s_u0 : PlatesDims u0.shape P s
  s_u1 : PlatesDims u1.shape P (s ++ s)
  s_g : BroadcastsTo g.shape P
  moments : ∀ p ∈ indices P, GaussianMomentsOn s p phi0 phi1 u0 u1 g

/-- The same for a Gaussian-gamma node, whose variable has the means `m` and the rates `r`. -/
structure GammaNodeOn (P s : List Nat) (phi u : Arr4) (g : Arr ℝ) (m : List Nat → MultiIndex s → ℝ) (r : List Nat → ℝ) : Prop where
  s_phi : ShapedGG P s phi
  s_u : ShapedGG P s u
  s_g : BroadcastsTo g.shape P
  moments : ∀ p ∈ indices P, GaussianGammaOn s p phi u g (m p) (r p)

end Verif.Spec
