import Mathlib.Analysis.SpecialFunctions.Trigonometric.Basic
import Mathlib.LinearAlgebra.Matrix.Determinant.Basic
import Mathlib.LinearAlgebra.CrossProduct
import Mathlib.LinearAlgebra.Matrix.Notation

/-!
# Specification: rotations of space

Nothing in this file refers to the model of the code.
-/

namespace Verif.Spec

open Matrix

/-- A proper orthogonal matrix. -/
def IsRotation {n : ℕ} (R : Matrix (Fin n) (Fin n) ℝ) : Prop := R * Rᵀ = 1 ∧ R.det = 1

/-- `R` is the rotation by the angle `t` (radians) about the unit vector `z`: a proper orthogonal matrix
that fixes `z` and turns every `v` perpendicular to `z` towards `z × v`. -/
structure IsRotationAbout (R : Matrix (Fin 3) (Fin 3) ℝ) (z : Fin 3 → ℝ) (t : ℝ) : Prop where
  rot : IsRotation R
  fixes : R *ᵥ z = z
  turns : ∀ v, z ⬝ᵥ v = 0 → R *ᵥ v = Real.cos t • v + Real.sin t • (z ⨯₃ v)

/-- `z` is the direction of `a`: the unit vector that is a positive multiple of `a`. -/
def IsDirection (z a : Fin 3 → ℝ) : Prop := z ⬝ᵥ z = 1 ∧ ∃ r : ℝ, 0 < r ∧ a = r • z

/-- The unit vector that a letter of `order` stands for. -/
def axisOf (c : Char) : Option (Fin 3 → ℝ) :=
  if c = 'X' ∨ c = 'x' then some ![1, 0, 0]
  else if c = 'Y' ∨ c = 'y' then some ![0, 1, 0]
  else if c = 'Z' ∨ c = 'z' then some ![0, 0, 1]
  else none

/-- The operation `x ↦ Q x + c`. -/
def seitz (Q : Matrix (Fin 3) (Fin 3) ℝ) (c x : Fin 3 → ℝ) : Fin 3 → ℝ := Q *ᵥ x + c

end Verif.Spec
