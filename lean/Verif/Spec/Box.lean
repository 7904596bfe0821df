import Mathlib.Data.Real.Basic
import Mathlib.Data.Matrix.Basic
import Mathlib.Algebra.BigOperators.Fin

/-!
# Specification: the points of a cell
-/

namespace Verif.Spec

/-- `v` lies in the cell spanned by the columns of `E`, extended by the factor `s` (the far faces are included when
`s` is 1). -/
def InCell {n : ℕ} (E : Matrix (Fin n) (Fin n) ℝ) (s : ℝ) (v : Fin n → ℝ) : Prop :=
  ∃ c : Fin n → ℝ, (∀ i, 0 ≤ c i ∧ c i ≤ s) ∧ ∀ k, v k = ∑ i, c i * E k i

/-- The columns of `E` are orthogonal and none is zero. -/
def OrthoCell {n : ℕ} (E : Matrix (Fin n) (Fin n) ℝ) : Prop :=
  (∀ i j, i ≠ j → ∑ k, E k i * E k j = 0) ∧ ∀ i, ∃ k, E k i ≠ 0

end Verif.Spec
