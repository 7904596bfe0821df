import Verif.Spec.Orthorhombic

/-!
# Cubic to monoclinic transformations with the two-fold axis along a cube axis

Used for `C105`.  Written without reference to the code.
-/

namespace Verif.Spec

open Matrix

/-- The stretch of a cubic to monoclinic transformation: `p` at the cube axis `i`, `q` at the cube axis `j` and `d` at
the third one on the diagonal, and `σ r` between `i` and `j`, where `σ` is `1` or `-1`. -/
noncomputable def monoStretch (p q r d : ℝ) (i j : Fin 3) (σ : ℝ) : Matrix (Fin 3) (Fin 3) ℝ :=
  Matrix.of fun l m =>
    if l = i then (if m = i then p else if m = j then σ * r else 0)
    else if l = j then (if m = j then q else if m = i then σ * r else 0)
    else if m = l then d else 0

/-- The diagonal entries are between 0.8 and 1.25, the first two differ by at least 0.01, and the size of the
off-diagonal entry is between 0.01 and 0.2. -/
def ClearlyMonoclinic (p q r d : ℝ) : Prop :=
  (4 / 5 ≤ p ∧ p ≤ 5 / 4) ∧ (4 / 5 ≤ q ∧ q ≤ 5 / 4) ∧ (4 / 5 ≤ d ∧ d ≤ 5 / 4) ∧
    1 / 100 ≤ |p - q| ∧ 1 / 100 ≤ |r| ∧ |r| ≤ 1 / 5

/-- Zero if and only if `d` is equal to one of the other two principal stretches. -/
def repeatedStretch (p q r d : ℝ) : ℝ := (d - p) * (d - q) - r ^ 2

end Verif.Spec
