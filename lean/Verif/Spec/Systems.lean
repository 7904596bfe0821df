import Mathlib.Analysis.SpecialFunctions.Trigonometric.Basic
import Mathlib.LinearAlgebra.Matrix.NonsingularInverse
import Mathlib.LinearAlgebra.Matrix.Permutation
import Verif.Spec.Lattice

/-!
# Specification: the rotation groups of the seven crystal systems

In the standard setting: the axes of a cubic, tetragonal or orthorhombic crystal are the coordinate axes
(the tetragonal axis is the third one), the sixfold axis of a hexagonal crystal is the third coordinate
axis and the first coordinate axis is a twofold axis, the threefold axis of a rhombohedral crystal is
the diagonal `[111]`, and the twofold axis of a monoclinic crystal is the second coordinate axis.

Nothing in this file refers to the model of the code.
-/

namespace Verif.Spec

open Matrix

/-- The seven crystal systems. -/
inductive CSystem
  | cubic | hexagonal | rhombohedral | tetragonal | orthorhombic | monoclinic | triclinic
  deriving DecidableEq

/-- The system of each of the fourteen Bravais types, in the numbering of the package. -/
def systemOf (id : ℤ) : CSystem :=
  if id ≤ 3 then .cubic
  else if id = 4 then .hexagonal
  else if id = 5 then .rhombohedral
  else if id ≤ 7 then .tetragonal
  else if id ≤ 11 then .orthorhombic
  else if id ≤ 13 then .monoclinic
  else .triclinic

/-- The number of rotations of each system. -/
def CSystem.order : CSystem → ℕ
  | .cubic => 24
  | .hexagonal => 12
  | .rhombohedral => 6
  | .tetragonal => 8
  | .orthorhombic => 4
  | .monoclinic => 2
  | .triclinic => 1

/-- The rotation about the third axis by the angle `θ`. -/
noncomputable def rotZ (θ : ℝ) : Matrix (Fin 3) (Fin 3) ℝ :=
  !![Real.cos θ, -Real.sin θ, 0; Real.sin θ, Real.cos θ, 0; 0, 0, 1]

/-- `Q` is a proper rotation that carries the set of the six signed coordinate axes to itself. -/
def IsAxisRotation (Q : Matrix (Fin 3) (Fin 3) ℝ) : Prop := IsIntegral Q ∧ Q * Qᵀ = 1 ∧ Q.det = 1

/-- `Q` is a rotation of the crystal system. -/
def CSystem.Rotation : CSystem → Matrix (Fin 3) (Fin 3) ℝ → Prop
  | .cubic, Q => IsAxisRotation Q
  | .hexagonal, Q => ∃ k : ℤ, Q = rotZ (k * (Real.pi / 3)) ∨
      Q = rotZ (k * (Real.pi / 3)) * !![1, 0, 0; 0, -1, 0; 0, 0, -1]
  | .rhombohedral, Q => IsAxisRotation Q ∧
      (Q *ᵥ ![1, 1, 1] = ![1, 1, 1] ∨ Q *ᵥ ![1, 1, 1] = -![1, 1, 1])
  | .tetragonal, Q => IsAxisRotation Q ∧ (Q *ᵥ ![0, 0, 1] = ![0, 0, 1] ∨ Q *ᵥ ![0, 0, 1] = -![0, 0, 1])
  | .orthorhombic, Q => IsAxisRotation Q ∧ ∀ i j, i ≠ j → Q i j = 0
  | .monoclinic, Q => Q = 1 ∨ Q = !![-1, 0, 0; 0, 1, 0; 0, 0, -1]
  | .triclinic, Q => Q = 1

end Verif.Spec
