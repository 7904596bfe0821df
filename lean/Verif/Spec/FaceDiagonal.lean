import Verif.Spec.SmallStretch

/-!
# Cubic to monoclinic transformations with the two-fold axis along a face diagonal

Used for `C108`.  Written without reference to the code.
-/

namespace Verif.Spec

open Matrix

/-- All three numbers are `1` or `-1`. -/
def Signs (s : Fin 3 → ℝ) : Prop := ∀ l, s l = 1 ∨ s l = -1

/-- The stretch of a cubic to monoclinic transformation with the two-fold axis along a face diagonal, as in Ni-Ti: on the
diagonal `g` at the cube axis `i` and `a` at the other two; off the diagonal `e` in the row and column of `i` and `d` in
the other two places, with the sign `s l * s m` at the place `(l, m)`. -/
noncomputable def faceStretch (g a e d : ℝ) (i : Fin 3) (s : Fin 3 → ℝ) : Matrix (Fin 3) (Fin 3) ℝ :=
  Matrix.of fun l m => s l * s m * (if l = m then (if l = i then g else a) else if l = i ∨ m = i then e else d)

/-- The rows of the stretch differ from those of the identity by at most 0.13, and `e` and `g - a` are at least 0.01. -/
structure ClearlyFaceDiagonal (g a e d : ℝ) : Prop where
  row : |g - 1| + 2 * |e| ≤ 13 / 100
  rows : |a - 1| + |e| + |d| ≤ 13 / 100
  shear : 1 / 100 ≤ |e|
  ratio : 1 / 100 ≤ |g - a|

/-- Zero if and only if the stretch `a - d` along the two-fold axis is equal to one of the other two principal
stretches. -/
def repeatedFaceStretch (g a e d : ℝ) : ℝ := e ^ 2 - d * (g + d - a)

end Verif.Spec
