import Verif.Spec.Rank1

/-!
# Best approximations by rank-one connections

Used for `C117`.  Written without reference to the code.
-/

namespace Verif.Spec

open Matrix

/-- By how much the square of the length of `x` under the deformation `1 + b ⊗ m` exceeds the one prescribed by the metric `C`. -/
noncomputable def lengthError (C : Matrix (Fin 3) (Fin 3) ℝ) (b m x : Fin 3 → ℝ) : ℝ :=
  ((1 + vecMulVec b m : Matrix (Fin 3) (Fin 3) ℝ) *ᵥ x) ⬝ᵥ ((1 + vecMulVec b m : Matrix (Fin 3) (Fin 3) ℝ) *ᵥ x) - x ⬝ᵥ C *ᵥ x

/-- The deformation `1 + b ⊗ m`, which meets the undeformed parent at the plane with the unit normal `m`, realises the metric `C` up
to an error `δ`, and no deformation of this form does better. -/
structure BestRankOne (C : Matrix (Fin 3) (Fin 3) ℝ) (δ : ℝ) (b m : Fin 3 → ℝ) : Prop where
  unit : m ⬝ᵥ m = 1
  orientation : 0 < (1 + vecMulVec b m : Matrix (Fin 3) (Fin 3) ℝ).det
  close : ∀ x, |lengthError C b m x| ≤ δ * (x ⬝ᵥ x)
  best : ∀ b' m', ∃ x, x ⬝ᵥ x = 1 ∧ δ ≤ |lengthError C b' m' x|

end Verif.Spec
