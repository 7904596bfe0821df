import Mathlib.Analysis.Calculus.Deriv.Basic
import Mathlib.Data.Real.Basic
import Mathlib.Algebra.BigOperators.Group.Finset.Basic

/-!
# Specification of the minimum of a quartic form on the unit sphere
-/

namespace Verif.Spec

variable {ι : Type} [Fintype ι]

/-- The quartic form of a tensor. -/
def quartic (T : ι → ι → ι → ι → ℝ) (x : ι → ℝ) : ℝ :=
  ∑ i, ∑ j, ∑ k, ∑ l, T i j k l * x i * x j * x k * x l

/-- A vector of length one. -/
def IsUnitVec (x : ι → ℝ) : Prop := ∑ i, x i ^ 2 = 1

/-- `m` is the minimum of the quartic form over the vectors of length one. -/
def IsSphereMin (T : ι → ι → ι → ι → ℝ) (m : ℝ) : Prop :=
  (∃ x, IsUnitVec x ∧ quartic T x = m) ∧ ∀ x, IsUnitVec x → m ≤ quartic T x

/-- `x` is a critical point of the form on the sphere: the derivative along every tangent vanishes. -/
def IsSphereCritical (T : ι → ι → ι → ι → ℝ) (x : ι → ℝ) : Prop :=
  IsUnitVec x ∧ ∀ v : ι → ℝ, ∑ i, x i * v i = 0 → HasDerivAt (fun t : ℝ => quartic T fun i => x i + t * v i) 0 0

end Verif.Spec
