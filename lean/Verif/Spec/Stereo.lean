import Mathlib.Data.Real.Basic
import Mathlib.Data.Matrix.Mul

/-!
# Specification: stereographic projection

Nothing in this file refers to the model of the code.
-/

namespace Verif.Spec

open Matrix

/-- The mirror image of `p` in the plane through the origin perpendicular to the unit vector `e`. -/
def mirror (e p : Fin 3 → ℝ) : Fin 3 → ℝ := p - (2 * (p ⬝ᵥ e)) • e

/-- `q` is the image of the direction `u` under the stereographic projection of the sphere of radius
`R` from its south pole `-R e`: it lies in the equatorial plane and on the line through the pole and
`R u`. -/
def IsStereo (R : ℝ) (e u q : Fin 3 → ℝ) : Prop :=
  q ⬝ᵥ e = 0 ∧ ∃ t : ℝ, q = -(R • e) + t • (R • u + R • e)

/-- `f₁`, `f₂` are orthonormal and perpendicular to `e`. -/
structure IsFrame (e f₁ f₂ : Fin 3 → ℝ) : Prop where
  norm₁ : f₁ ⬝ᵥ f₁ = 1
  norm₂ : f₂ ⬝ᵥ f₂ = 1
  orth : f₁ ⬝ᵥ f₂ = 0
  perp₁ : f₁ ⬝ᵥ e = 0
  perp₂ : f₂ ⬝ᵥ e = 0

end Verif.Spec
