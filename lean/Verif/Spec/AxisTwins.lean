import Verif.Spec.Twin
import Mathlib.LinearAlgebra.CrossProduct

/-!
# The types of the twins about an axis

Used for `C113`.  Written without reference to the code.
-/

namespace Verif.Spec

open Matrix

/-- The direction perpendicular to `n` that is still perpendicular to it after the stretch `V`. -/
def crossDirection (V : Matrix (Fin 3) (Fin 3) ℝ) (n : Fin 3 → ℝ) : Fin 3 → ℝ := n ⨯₃ ((V * V) *ᵥ n)

/-- `y` is a principal direction of `V`. -/
def IsPrincipal (V : Matrix (Fin 3) (Fin 3) ℝ) (y : Fin 3 → ℝ) : Prop := ∃ d : ℝ, V *ᵥ y = d • y

/-- `y` is clearly not a principal direction of `V`: the square of `V` moves it out of its line by at least the 1000000-th part
of its length. -/
def ClearlyNotPrincipal (V : Matrix (Fin 3) (Fin 3) ℝ) (y : Fin 3 → ℝ) : Prop :=
  (1 / 10 ^ 6) ^ 2 * (y ⬝ᵥ y) ^ 2 ≤ (y ⨯₃ ((V * V) *ᵥ y)) ⬝ᵥ (y ⨯₃ ((V * V) *ᵥ y))

end Verif.Spec
