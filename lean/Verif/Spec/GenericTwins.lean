import Verif.Spec.SmallStretch
import Verif.Spec.Twin

/-!
# The twins that every small stretch of a cube has

Used for `C112`.  Written without reference to the code.
-/

namespace Verif.Spec

open Matrix

/-- A half turn that maps the cube to itself. -/
def IsCubeHalfTurn (R : Matrix (Fin 3) (Fin 3) ℤ) : Prop := IsCubeRotation R ∧ R * R = 1 ∧ R ≠ 1

/-- Some half turn of the cube carries the one stretch to the other. -/
def HalfTurnRelated (V W : Matrix (Fin 3) (Fin 3) ℝ) : Prop :=
  ∃ R, IsCubeHalfTurn R ∧ W = realOf R * V * (realOf R)ᵀ

end Verif.Spec
