import Verif.Spec.Variants

/-!
# Specification: distance of two arrays, and what the checks of the arguments can see of a stretch

Nothing in this file refers to the model of the code.
-/

namespace Verif.Spec

open Matrix

/-- The sum of the squares of the differences of the entries. -/
def distSq (A B : Matrix (Fin 3) (Fin 3) ℝ) : ℝ := ∑ i, ∑ j, (A i j - B i j) ^ 2

/-- Positive determinant and symmetric up to `ε`: a necessary condition for a stretch, but not a sufficient one. -/
def NearlyStretch (ε : ℝ) (C : Matrix (Fin 3) (Fin 3) ℝ) : Prop := 0 < C.det ∧ distSq C Cᵀ < ε ^ 2

end Verif.Spec
