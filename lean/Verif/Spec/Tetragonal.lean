import Verif.Spec.Twin

/-!
# Cubic to tetragonal transformations

Used for `C101` and `C102`.  Written without reference to the code.
-/

namespace Verif.Spec

open Matrix

/-- The stretch of a cubic to tetragonal transformation whose tetragonal axis is the cube axis `k`: by the factor
`γ` along it and by the factor `α` across it. -/
noncomputable def tetraStretch (α γ : ℝ) (k : Fin 3) : Matrix (Fin 3) (Fin 3) ℝ :=
  Matrix.diagonal fun i => if i = k then γ else α

/-- The unit normal of a plane of the family `{110}`: `(eᵢ + σ eⱼ) / √2`, where `σ` is `1` or `-1`. -/
noncomputable def diagonalNormal (i j : Fin 3) (σ : ℝ) : Fin 3 → ℝ :=
  fun l => (if l = i then 1 else if l = j then σ else 0) / Real.sqrt 2

/-- The shear belonging to that plane: `√2 (α² - γ²) / (α² + γ²) (γ eᵢ - σ α eⱼ)`. -/
noncomputable def diagonalShear (α γ : ℝ) (i j : Fin 3) (σ : ℝ) : Fin 3 → ℝ :=
  fun l => Real.sqrt 2 * ((α ^ 2 - γ ^ 2) / (α ^ 2 + γ ^ 2)) * (if l = i then γ else if l = j then -(σ * α) else 0)

/-- The two stretches are positive and clearly different: both are at least 1/1000, the smaller one is at most
0.9999 and at least 0.0001 times the larger one. -/
def ClearlyTetragonal (α γ : ℝ) : Prop :=
  1 / 10 ^ 3 ≤ α ∧ 1 / 10 ^ 3 ≤ γ ∧
    (γ ≤ (1 - 1 / 10 ^ 4) * α ∧ 1 / 10 ^ 4 * α ≤ γ ∨ α ≤ (1 - 1 / 10 ^ 4) * γ ∧ 1 / 10 ^ 4 * γ ≤ α)

/-- The condition of Ball and James under which some laminate of two variants of a cubic to tetragonal transformation
can meet the cubic parent: the two stretches are on different sides of 1, and the one across the axis is close enough
to 1. -/
def CanMeetParent (α γ : ℝ) : Prop :=
  α < 1 ∧ 1 < γ ∧ 1 / α ^ 2 + 1 / γ ^ 2 ≤ 2 ∨ γ < 1 ∧ 1 < α ∧ α ^ 2 + γ ^ 2 ≤ 2

/-- The square of the distance to 1/2 of the volume fractions with which a laminate of two variants has a stretch
equal to one; negative if there are none. -/
noncomputable def fractionOffset (α γ : ℝ) : ℝ :=
  1 / 4 - (α ^ 2 - 1) * (1 - γ ^ 2) * (α ^ 2 + γ ^ 2) / (2 * (α ^ 2 - γ ^ 2) ^ 2)

/-- The larger one of these fractions; the other one is one minus it. -/
noncomputable def laminateFraction (α γ : ℝ) : ℝ := 1 / 2 + Real.sqrt (fractionOffset α γ)

end Verif.Spec
