import Verif.Spec.Twin

/-!
# Specification: twins up to sign

Reversing both the shear and the normal of a twin describes the same twin.  Nothing in this file refers to the
model of the code.
-/

namespace Verif.Spec

open Matrix

/-- The shear `a'` and normal `n'` are `a` and `n`, or both are reversed. -/
def SameUpToSign (a n a' n' : Fin 3 → ℝ) : Prop := (a' = a ∧ n' = n) ∨ (a' = -a ∧ n' = -n)

/-- The twin of `V` and `U` with rotation `Q'`, shear `a'` and normal `n'` is the twin of `U` and `V` with `Q`, `a`
and `n` seen from the other side: the rotation is inverse, the plane is the same, and the shear is opposite, seen in
the frame of `V`. -/
def SeenFromOtherSide (Q : Matrix (Fin 3) (Fin 3) ℝ) (a n : Fin 3 → ℝ) (Q' : Matrix (Fin 3) (Fin 3) ℝ)
    (a' n' : Fin 3 → ℝ) : Prop :=
  Q' = Qᵀ ∧ SameUpToSign (-(Qᵀ *ᵥ a)) n a' n'

end Verif.Spec
