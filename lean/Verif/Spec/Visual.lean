import Mathlib.Data.Real.Basic
import Mathlib.Data.Matrix.Basic
import Mathlib.Algebra.BigOperators.Fin

/-!
# Specification: the corners of a cell

Nothing in this file refers to the model of the code.
-/

namespace Verif.Spec

/-- The corner of the cell with origin `o` and edge vectors `E i` that is reached from the origin along
the edges in `S`. -/
def corner {n : ℕ} (o : Fin n → ℝ) (E : Matrix (Fin n) (Fin n) ℝ) (S : Finset (Fin n)) : Fin n → ℝ :=
  fun j => o j + ∑ i ∈ S, E i j

end Verif.Spec
