import Mathlib.LinearAlgebra.Matrix.Determinant.Basic
import Mathlib.Data.Matrix.Basis

/-!
# What the search in one sublattice is about

Independent of the program: transvections, local minima and orbits under `SL(3, ℤ)`.
-/

namespace Verif.Spec

open Matrix

/-- `1 + e_i e_jᵀ` or `1 - e_i e_jᵀ` with `i ≠ j`. -/
def IsTransvection (M : Matrix (Fin 3) (Fin 3) ℤ) : Prop :=
  ∃ i j : Fin 3, i ≠ j ∧ (M = 1 + Matrix.single i j 1 ∨ M = 1 - Matrix.single i j 1)

/-- No transvection makes the distance smaller. -/
def LocalMin {K : Type} [LE K] (dist : Matrix (Fin 3) (Fin 3) ℤ → K)
    (L : Matrix (Fin 3) (Fin 3) ℤ) : Prop :=
  ∀ M, IsTransvection M → dist L ≤ dist (L * M)

/-- `L'` is `L` times an element of `SL(3, ℤ)`. -/
def SameOrbit (L L' : Matrix (Fin 3) (Fin 3) ℤ) : Prop := ∃ S : Matrix (Fin 3) (Fin 3) ℤ, S.det = 1 ∧ L' = L * S

end Verif.Spec
