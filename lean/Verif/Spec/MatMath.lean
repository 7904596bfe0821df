import Mathlib.Data.Matrix.Basic

/-!
# Specification: a row of `d²` numbers read as a `d × d` matrix

Nothing in this file refers to the model of the code.
-/

namespace Verif.Spec

/-- The matrix stored row after row in the first `d²` entries of `row`. -/
def matOf {R : Type*} (d : ℕ) (row : ℕ → R) : Matrix (Fin d) (Fin d) R :=
  fun i j => row (i * d + j)

end Verif.Spec
