import Mathlib.Data.Matrix.Mul
import Mathlib.LinearAlgebra.Matrix.NonsingularInverse
import Verif.Spec.Dist
import Verif.Spec.Rotation
import Verif.Spec.Variants

/-!
# Specification: rank-one connections

`vecMulVec a n` is the dyad `a ⊗ n`.  Nothing in this file refers to the model of the code.
-/

namespace Verif.Spec

open Matrix

/-- `lam` are the eigenvalues of `A` with multiplicity, in increasing order. -/
def SortedEigenvalues {N : ℕ} (A : Matrix (Fin N) (Fin N) ℝ) (lam : Fin N → ℝ) : Prop :=
  Monotone lam ∧ IsEigenvalues A lam

/-- The vectors `b` and `m` solve `C = (1 + m ⊗ b) (1 + b ⊗ m)` and `m` has length one. -/
def SolvesRankOne (C : Matrix (Fin 3) (Fin 3) ℝ) (b m : Fin 3 → ℝ) : Prop :=
  m ⬝ᵥ m = 1 ∧ (1 + vecMulVec m b) * (1 + vecMulVec b m) = C

/-- Some rotation of `B` differs from `A` by a dyad: both deformations can meet at a plane. -/
def RankOneConnected (A B : Matrix (Fin 3) (Fin 3) ℝ) : Prop :=
  ∃ (Q : Matrix (Fin 3) (Fin 3) ℝ) (a n : Fin 3 → ℝ), IsRotation Q ∧ Q * B - A = vecMulVec a n

/-- What `numpy.linalg.eig` promises for a symmetric matrix: the eigenvalues with multiplicity and for
each of them a unit eigenvector. -/
structure EigOK (vals : Fin 3 → ℝ) (vecs : Fin 3 → Fin 3 → ℝ) (A : Matrix (Fin 3) (Fin 3) ℝ) : Prop where
  eigenvalues : IsEigenvalues A vals
  eigenvector : ∀ i, A *ᵥ vecs i = vals i • vecs i
  unit : ∀ i, vecs i ⬝ᵥ vecs i = 1

end Verif.Spec
