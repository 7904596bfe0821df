import Verif.Spec.Twin

/-!
# Accuracy of volume fractions

Used for `C116`.  Written without reference to the code.
-/

namespace Verif.Spec

open Matrix

/-- `F` is an accurate answer to the question for which volume fraction in (1/2, 1) the laminate of `U` and `U + a ⊗ n` can meet the
undeformed parent, `none` standing for the answer that there is no such fraction.  `s` is how much the determinant of
`interfaceDet` varies between the fractions 0 and 1/2. -/
structure AccurateFraction (U : Matrix (Fin 3) (Fin 3) ℝ) (a n : Fin 3 → ℝ) (F : Option ℝ) : Prop where
  /-- A fraction that is given lies in [0, 1] and makes the determinant vanish up to 1e-9, except that fractions at a distance of at
  most 1e-6 from one count as one, and that zero stands for determinants that do not vary by more than 1e-9. -/
  sound : ∀ f, F = some f → 0 ≤ f ∧ f ≤ 1 ∧
    (|interfaceDet U a n f| ≤ 1 / 10 ^ 9 ∨
     (f = 1 ∧ ∃ g, |1 - g| < 1 / 10 ^ 6 ∧ |interfaceDet U a n g| ≤ 1 / 10 ^ 9) ∨
     (f = 0 ∧ ∀ g, 0 ≤ g → g ≤ 1 → |interfaceDet U a n g - interfaceDet U a n 0| ≤ 1 / 10 ^ 9))
  /-- A fraction `g` that makes the determinant vanish and is at least `d` away from 1/2 and 1 is given up to an error of at most
  `2e-10/(s d)`. -/
  complete : ∀ s d g, s = |interfaceDet U a n (1 / 2) - interfaceDet U a n 0| → 2 / 10 ^ 6 ≤ d → 1 / 10 ^ 9 ≤ s * d ^ 2 →
    1 / 2 + d ≤ g → g ≤ 1 - d → interfaceDet U a n g = 0 → ∃ f, F = some f ∧ |f - g| ≤ 2 / 10 ^ 10 / (s * d)

end Verif.Spec
