import Verif.Spec.Twin

/-!
# Accuracy of rounded solutions of the twinning equation

Used for `C115`.  Written without reference to the code.
-/

namespace Verif.Spec

open Matrix

/-- The exact solution `(Q₀, a₀, n₀)` of the twinning equation is approximated by `(Q, a, n)`: the equation holds exactly,
shear and normal are right up to 5e-11 in each component, and the rotation up to 1e-9. -/
structure Approximates (U V : Matrix (Fin 3) (Fin 3) ℝ) (Q₀ : Matrix (Fin 3) (Fin 3) ℝ) (a₀ n₀ : Fin 3 → ℝ)
    (Q : Matrix (Fin 3) (Fin 3) ℝ) (a n : Fin 3 → ℝ) : Prop where
  exact : SolvesTwin U V Q₀ a₀ n₀
  equation : Q * V - U = vecMulVec a n
  shear : ∀ i, |a i - a₀ i| ≤ 5 / 10 ^ 11
  normal : ∀ i, |n i - n₀ i| ≤ 5 / 10 ^ 11
  rotation : ∀ i j, |Q i j - Q₀ i j| ≤ 1 / 10 ^ 9

end Verif.Spec
