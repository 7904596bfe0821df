import Verif.Spec.FaceDiagonal

/-!
# Cubic to trigonal transformations

Used for `C109`.  Written without reference to the code.
-/

namespace Verif.Spec

open Matrix

/-- The stretch of a cubic to trigonal transformation: `a` on the diagonal, `e` off it, with the sign `s l * s m` at the
place `(l, m)`.  The three-fold axis is the space diagonal `s`. -/
noncomputable def trigonalStretch (a e : ℝ) (s : Fin 3 → ℝ) : Matrix (Fin 3) (Fin 3) ℝ :=
  Matrix.of fun l m => if l = m then a else s l * s m * e

/-- The rows of the stretch differ from those of the identity by at most 0.13, and `e` is at least 0.005 in absolute value. -/
structure ClearlyTrigonal (a e : ℝ) : Prop where
  row : |a - 1| + 2 * |e| ≤ 13 / 100
  shear : 1 / 200 ≤ |e|

/-- The same vector or the opposite one. -/
def SameLine (n n' : Fin 3 → ℝ) : Prop := n = n' ∨ n = -n'

end Verif.Spec
