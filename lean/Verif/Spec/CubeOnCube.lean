import Verif.Spec.Dist

/-!
# Lattices with nearly equal, orthogonal edges

Used for `C100`.  Written without reference to the code.
-/

namespace Verif.Spec

open Matrix

variable {N : ℕ}

/-- The edges `e` are close to `a`: `(a / e)²` differs from one by at most a quarter, that is, `e` is between about
89 % and 115 % of `a`. -/
def CloseEdges (a : ℝ) (e : Fin N → ℝ) : Prop := ∀ j, 0 < e j ∧ |(a / e j) ^ 2 - 1| ≤ 1 / 4

end Verif.Spec
