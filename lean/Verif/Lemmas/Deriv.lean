import Mathlib.Analysis.Calculus.Deriv.Basic

/-!
# Derivatives of equal functions
-/

namespace Verif

theorem hasDerivAt_of_eq {F G : ℝ → ℝ} {a b x : ℝ} (h : HasDerivAt F a x) (hF : ∀ t, G t = F t) (hab : b = a) :
    HasDerivAt G b x := by
  rw [hab, show G = F from funext hF]
  exact h

end Verif
