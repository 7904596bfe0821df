import Verif.Spec.FractionAccuracy
import Verif.Spec.HabitAccuracy

/-!
# Laminates whose habit planes are well determined

Used for `C103`.  Written without reference to the code.
-/

namespace Verif.Spec

open Matrix

/-- The habit planes of the laminates of the twin `(a, n)` are well determined: the shear is at most `A`, the accurate fractions are
determined up to `e`, and the laminates shorten and lengthen vectors by at least `g`. -/
structure WellDetermined (U : Matrix (Fin 3) (Fin 3) ℝ) (a n : Fin 3 → ℝ) (A e g : ℝ) : Prop where
  shear : a ⬝ᵥ a ≤ A ^ 2
  fraction : ∀ f f' : ℝ, AccurateFraction U a n (some f) → AccurateFraction U a n (some f') → 0 < f → f < 1 → 0 < f' → f' < 1 →
    |f - f'| ≤ e
  stretches : ∀ f : ℝ, AccurateFraction U a n (some f) → 0 < f → f < 1 → StretchesBothWays (U + f • vecMulVec a n) g

end Verif.Spec
