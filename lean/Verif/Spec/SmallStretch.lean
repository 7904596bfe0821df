import Verif.Spec.Variants

/-!
# Small stretches of a cubic lattice

Used for `C107`.  Written without reference to the code.
-/

namespace Verif.Spec

open Matrix

/-- A rotation that maps the cube to itself: an orthogonal integer matrix with determinant one. -/
def IsCubeRotation (R : Matrix (Fin 3) (Fin 3) ℤ) : Prop := R * Rᵀ = 1 ∧ R.det = 1

/-- The integer matrix as a real one. -/
noncomputable def realOf (R : Matrix (Fin 3) (Fin 3) ℤ) : Matrix (Fin 3) (Fin 3) ℝ := R.map (Int.cast : ℤ → ℝ)

/-- A symmetric matrix that differs from the identity by at most 0.13, where the sizes of the three differences in a
row are added. -/
structure SmallStretch (U : Matrix (Fin 3) (Fin 3) ℝ) : Prop where
  symmetric : Uᵀ = U
  near : ∀ i, ∑ j, |U i j - (1 : Matrix (Fin 3) (Fin 3) ℝ) i j| ≤ 13 / 100

/-- Each rotation of the cube leaves the stretch unchanged, or changes an entry by at least 0.0001. -/
def ClearSymmetry (U : Matrix (Fin 3) (Fin 3) ℝ) : Prop :=
  ∀ R, IsCubeRotation R →
    realOf R * U * (realOf R)ᵀ = U ∨ ∃ i j, 1 / 10 ^ 4 ≤ |(realOf R * U * (realOf R)ᵀ) i j - U i j|

end Verif.Spec
