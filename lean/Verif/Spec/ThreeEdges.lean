import Verif.Spec.Trigonal

/-!
# Cubic to orthorhombic transformations along the cube axes

Used for `C110`.  Written without reference to the code.
-/

namespace Verif.Spec

/-- Three stretches along the cube axes, each within 13 per cent of one, each two of them at least 0.01 apart. -/
structure ThreeEdges (e : Fin 3 → ℝ) : Prop where
  near : ∀ i, |e i - 1| ≤ 13 / 100
  apart : ∀ i j, i ≠ j → 1 / 100 ≤ |e i - e j|

end Verif.Spec
