import Mathlib.LinearAlgebra.Matrix.NonsingularInverse

/-!
# Specification vocabulary for Hermite normal forms

Nothing in this file refers to the model of the code.
-/

namespace Verif.Spec

open Matrix

/-- The package's Hermite normal form: lower triangular, positive diagonal, and every entry left of
the diagonal of row `i` lies in `(-H i i, 0]`. -/
structure IsHNF {n : ℕ} (H : Matrix (Fin n) (Fin n) ℤ) : Prop where
  upper : ∀ i j, i < j → H i j = 0
  diag : ∀ i, 0 < H i i
  lower : ∀ i j, j < i → -H i i < H i j ∧ H i j ≤ 0

/-- An integer matrix with determinant `1` or `-1`. -/
def Unimodular {n : ℕ} (U : Matrix (Fin n) (Fin n) ℤ) : Prop := U.det = 1 ∨ U.det = -1

/-- The set of integer combinations of the columns of `M`. -/
def columnLattice {n : ℕ} (M : Matrix (Fin n) (Fin n) ℤ) : Set (Fin n → ℤ) :=
  {x | ∃ c : Fin n → ℤ, x = M *ᵥ c}

end Verif.Spec
