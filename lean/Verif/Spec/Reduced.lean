import Mathlib.Data.Real.Basic
import Mathlib.Data.Matrix.Mul
import Mathlib.Order.Interval.Finset.Fin

/-!
# Specification: Gram-Schmidt vectors and reduced bases

Nothing in this file refers to the model of the code.
-/

namespace Verif.Spec

open Matrix

/-- `O`, `M` are the Gram-Schmidt vectors and coefficients of the vectors `C`. -/
structure IsGramSchmidt {n m : ℕ} (C O : Fin n → Fin m → ℝ) (M : Fin n → Fin n → ℝ) : Prop where
  orth : ∀ i j, i ≠ j → O i ⬝ᵥ O j = 0
  diag : ∀ i, M i i = 1
  upper : ∀ i j, i < j → M i j = 0
  fact : ∀ i, C i = ∑ j, M i j • O j

/-- The Lovász condition with factor 4/3: the component of `C i` perpendicular to the earlier vectors
is not much longer than that of the next vector. -/
def Lovasz {n m : ℕ} (O : Fin n → Fin m → ℝ) (M : Fin n → Fin n → ℝ) : Prop :=
  ∀ (i j : Fin n), (j : ℕ) = i + 1 →
    O i ⬝ᵥ O i ≤ 4 / 3 * ((O j + M j i • O i) ⬝ᵥ (O j + M j i • O i))

end Verif.Spec
