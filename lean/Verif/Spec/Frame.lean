import Verif.Spec.Dist
import Verif.Spec.Rank1

/-!
# Specification: the same data in another frame

An orthogonal matrix `Q` carries vectors `v` to `Q v` and matrices `M` to `Q M Qᵀ`.  Nothing in this file refers
to the model of the code.
-/

namespace Verif.Spec

open Matrix

/-- The matrix `M` in the frame turned by `Q`. -/
def inFrame (Q M : Matrix (Fin 3) (Fin 3) ℝ) : Matrix (Fin 3) (Fin 3) ℝ := Q * M * Qᵀ

/-- `y` is the vector `x` in the frame turned by `Q`, or its opposite.  NaN is carried to NaN. -/
inductive SameAxis (Q : Matrix (Fin 3) (Fin 3) ℝ) : Option (Fin 3 → ℝ) → Option (Fin 3 → ℝ) → Prop
  | nan : SameAxis Q none none
  | plus (x : Fin 3 → ℝ) : SameAxis Q (some x) (some (Q *ᵥ x))
  | minus (x : Fin 3 → ℝ) : SameAxis Q (some x) (some (-(Q *ᵥ x)))

/-- The dyad of `y` is that of `x` in the frame turned by `Q`: both vectors carried by `Q`, or both also reversed. -/
def SameDyad (Q : Matrix (Fin 3) (Fin 3) ℝ) (x y : (Fin 3 → ℝ) × (Fin 3 → ℝ)) : Prop :=
  (y.1 = Q *ᵥ x.1 ∧ y.2 = Q *ᵥ x.2) ∨ (y.1 = -(Q *ᵥ x.1) ∧ y.2 = -(Q *ᵥ x.2))

/-- `l'` is, up to order, made of partners of the members of `l`. -/
def SameUpToOrder {α : Type} (R : α → α → Prop) (l l' : List α) : Prop :=
  ∃ m, List.Forall₂ R l m ∧ l'.Perm m

/-- The eigenvalues of `A` are distinct. -/
def SimpleSpectrum (A : Matrix (Fin 3) (Fin 3) ℝ) : Prop :=
  ∃ l : Fin 3 → ℝ, IsEigenvalues A l ∧ Function.Injective l

end Verif.Spec
