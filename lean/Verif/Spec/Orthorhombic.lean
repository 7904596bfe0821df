import Verif.Spec.Tetragonal

/-!
# Cubic to orthorhombic transformations

Used for `C104`.  Written without reference to the code.
-/

namespace Verif.Spec

open Matrix

/-- The stretch of a cubic to orthorhombic transformation: by the factor `β` along the cube axis `k`, by `α` along
the face diagonal `eᵢ + σ eⱼ` and by `γ` along the face diagonal `eᵢ - σ eⱼ` of the face across `k`, where `σ` is `1`
or `-1`. -/
noncomputable def orthoStretch (α β γ : ℝ) (k : Fin 3) (σ : ℝ) : Matrix (Fin 3) (Fin 3) ℝ :=
  Matrix.of fun i j =>
    if i = k then (if j = k then β else 0)
    else if j = k then 0
    else if i = j then (α + γ) / 2
    else σ * ((α - γ) / 2)

/-- The shear belonging to the twin plane across the cube axis `i` of the two variants with the cube axis `k`, where `j`
is the third axis: `-2σ (α² - γ²) / (α² + γ²) (σ (α - γ)/2 eᵢ + (α + γ)/2 eⱼ)`. -/
noncomputable def faceShear (α γ : ℝ) (i j : Fin 3) (σ : ℝ) : Fin 3 → ℝ :=
  fun l => -(2 * σ * ((α ^ 2 - γ ^ 2) / (α ^ 2 + γ ^ 2))) *
    (if l = i then σ * ((α - γ) / 2) else if l = j then (α + γ) / 2 else 0)

/-- The three stretches are between 0.8 and 1.25 and differ from each other by at least 0.01. -/
def ClearlyOrthorhombic (α β γ : ℝ) : Prop :=
  (4 / 5 ≤ α ∧ α ≤ 5 / 4) ∧ (4 / 5 ≤ β ∧ β ≤ 5 / 4) ∧ (4 / 5 ≤ γ ∧ γ ≤ 5 / 4) ∧
    1 / 100 ≤ |α - β| ∧ 1 / 100 ≤ |α - γ| ∧ 1 / 100 ≤ |β - γ|

end Verif.Spec
