import Verif.Spec.Twin

/-!
# Specification: the cofactor conditions

Nothing in this file refers to the model of the code.
-/

namespace Verif.Spec

open Matrix

/-- The stretch `U` leaves some direction as it is. -/
def HasUnstretched (U : Matrix (Fin 3) (Fin 3) ℝ) : Prop := ∃ v, v ≠ 0 ∧ U *ᵥ v = v

/-- The laminate of `U` and `U + a ⊗ n` with volume fraction `f` has a stretch equal to one: this is the
condition for an interface with the undeformed parent (up to an inequality between the other two). -/
def LaminateFits (U : Matrix (Fin 3) (Fin 3) ℝ) (a n : Fin 3 → ℝ) (f : ℝ) : Prop :=
  ∃ w, w ≠ 0 ∧ ((U + f • vecMulVec a n)ᵀ * (U + f • vecMulVec a n)) *ᵥ w = w

/-- `U a · cof(U² - I) n`, where the cofactor matrix is the transpose of the adjugate. -/
noncomputable def cofactorValue (U : Matrix (Fin 3) (Fin 3) ℝ) (a n : Fin 3 → ℝ) : ℝ :=
  (U *ᵥ a) ⬝ᵥ ((U * U - 1).adjugate)ᵀ *ᵥ n

end Verif.Spec
