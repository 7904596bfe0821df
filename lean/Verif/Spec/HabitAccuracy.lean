import Verif.Spec.BestRankOne
import Verif.Spec.Twin

/-!
# Approximate habit planes

Used for `C118`.  Written without reference to the code.
-/

namespace Verif.Spec

open Matrix

/-- `(R, b, m)` is a habit plane of the deformation `F` up to an error `δ`: `m` is a unit vector, the deformation `1 + b ⊗ m` stretches
all directions as `F` does, and `R`, which is a rotation up to the error, carries the stretch of `F` to it.  Errors are errors of
squares of lengths, relative to the undeformed ones. -/
structure ApproxHabit (F : Matrix (Fin 3) (Fin 3) ℝ) (δ : ℝ) (R : Matrix (Fin 3) (Fin 3) ℝ) (b m : Fin 3 → ℝ) : Prop where
  unit : m ⬝ᵥ m = 1
  orientation : 0 < (1 + vecMulVec b m : Matrix (Fin 3) (Fin 3) ℝ).det
  fits : ∀ x, |lengthError (Fᵀ * F) b m x| ≤ δ * (x ⬝ᵥ x)
  carries : ∃ S, IsSPD S ∧ (∀ x, |(S *ᵥ x) ⬝ᵥ (S *ᵥ x) - (F *ᵥ x) ⬝ᵥ (F *ᵥ x)| ≤ δ * (x ⬝ᵥ x)) ∧ R * S = 1 + vecMulVec b m
  proper : 0 < R.det
  rotation : ∀ x, |(R *ᵥ x) ⬝ᵥ (R *ᵥ x) - x ⬝ᵥ x| ≤ 10 * δ * (x ⬝ᵥ x)

/-- `F` makes some unit vector shorter and some unit vector longer, and the squares of the lengths change by at least `g`. -/
def StretchesBothWays (F : Matrix (Fin 3) (Fin 3) ℝ) (g : ℝ) : Prop :=
  (∃ p, p ⬝ᵥ p = 1 ∧ (F *ᵥ p) ⬝ᵥ (F *ᵥ p) ≤ 1 - g) ∧ ∃ q, q ⬝ᵥ q = 1 ∧ 1 + g ≤ (F *ᵥ q) ⬝ᵥ (F *ᵥ q)

/-- The planes with the normals `m₁` and `m₂` are all the habit planes of `F`: every plane on which some `1 + b ⊗ m` agrees with `F` up
to an error `δ₀` in the squared lengths makes with one of them an angle whose sine is at most `6 (δ + δ₀) / g`. -/
def FindsEveryPlane (F : Matrix (Fin 3) (Fin 3) ℝ) (δ g : ℝ) (m₁ m₂ : Fin 3 → ℝ) : Prop :=
  ∀ (δ₀ : ℝ) (b m : Fin 3 → ℝ), m ⬝ᵥ m = 1 → (∀ x, |lengthError (Fᵀ * F) b m x| ≤ δ₀ * (x ⬝ᵥ x)) →
    4 * δ₀ ≤ g → 250 * (δ + δ₀) ^ 2 ≤ g ^ 3 →
    ∃ m' ∈ [m₁, m₂], crossProduct m m' ⬝ᵥ crossProduct m m' ≤ (6 * (δ + δ₀) / g) ^ 2

end Verif.Spec
