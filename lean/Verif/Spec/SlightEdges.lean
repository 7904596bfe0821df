import Mathlib.Data.Real.Basic
import Mathlib.Algebra.Order.Group.Abs

/-!
# From lattice parameters to twins

Used for `C111`.  Written without reference to the code.
-/

namespace Verif.Spec

/-- The edges `e` differ by at most ten per cent from the edge `a`, and each two of them are equal or differ by at least one
per cent of `a`. -/
structure SlightEdges (a : ℝ) (e : Fin 3 → ℝ) : Prop where
  near : ∀ i, |e i / a - 1| ≤ 1 / 10
  clear : ∀ i j, e i = e j ∨ 1 / 100 ≤ |e i / a - e j / a|

end Verif.Spec
