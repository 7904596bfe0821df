import Verif.Spec.Dist

/-!
# Cubic lattices and the Bain strain

Used for `C99`.  Written without reference to the code.
-/

namespace Verif.Spec

open Matrix

/-- A basis of the face-centred cubic lattice with the cube edge `a`: three half face diagonals, as columns. -/
noncomputable def fcc (a : ℝ) : Matrix (Fin 3) (Fin 3) ℝ :=
  !![a / 2, 0, a / 2; a / 2, a / 2, 0; 0, a / 2, a / 2]

/-- A basis of the body-centred cubic lattice with the cube edge `b`: three half space diagonals, as columns. -/
noncomputable def bcc (b : ℝ) : Matrix (Fin 3) (Fin 3) ℝ :=
  !![b / 2, -b / 2, -b / 2; b / 2, b / 2, -b / 2; b / 2, b / 2, b / 2]

/-- Bain's strain from face-centred cubic (edge `a`) to body-centred cubic (edge `b`): along the cube axis `k` the
edge `a` becomes `b`, and across it the half diagonals of the square face, of length `a / √2`, become `b`. -/
noncomputable def bainStretch (a b : ℝ) (k : Fin 3) : Matrix (Fin 3) (Fin 3) ℝ :=
  Matrix.diagonal fun i => if i = k then b / a else Real.sqrt 2 * (b / a)

end Verif.Spec
