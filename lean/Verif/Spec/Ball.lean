import Mathlib.Analysis.SpecialFunctions.Pow.Real
import Mathlib.LinearAlgebra.Matrix.Notation

/-!
# Specification: integer vectors and matrices in a ball

Nothing in this file refers to the model of the code.
-/

namespace Verif.Spec

/-- The Euclidean length of an integer vector. -/
noncomputable def euclid (v : List ℤ) : ℝ := Real.sqrt ((v.map (fun x : ℤ => (x : ℝ) ^ 2)).sum)

/-- The Frobenius norm of an integer matrix. -/
noncomputable def frob {N : ℕ} (L : Matrix (Fin N) (Fin N) ℤ) : ℝ :=
  Real.sqrt (∑ i, ∑ j, (L i j : ℝ) ^ 2)

/-- Every positive coordinate of the vector is followed by zeros only. -/
def PositiveThenZero (v : List ℤ) : Prop := v.Pairwise (fun a b => 0 < a → b = 0)

end Verif.Spec
