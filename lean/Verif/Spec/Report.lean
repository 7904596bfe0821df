import Mathlib.LinearAlgebra.Matrix.PosDef
import Mathlib.LinearAlgebra.Matrix.Charpoly.Basic
import Mathlib.LinearAlgebra.Matrix.NonsingularInverse

/-!
# Specification: a consistent report of a lattice correspondence

Nothing in this file refers to the model.
-/

namespace Verif.Spec

open Matrix

variable {N : ℕ}

/-- What `la.eig` promises for a real symmetric matrix: the columns of `V` are a basis of eigenvectors
(not necessarily orthogonal ones) with the eigenvalues `lam`. -/
def IsEigenSystem (A : Matrix (Fin N) (Fin N) ℝ) (lam : Fin N → ℝ) (V : Matrix (Fin N) (Fin N) ℝ) :
    Prop :=
  V.det ≠ 0 ∧ A * V = V * Matrix.diagonal lam

/-- The correspondence `L` between the lattices with bases `EA` and `EM` (columns) and conventional cells
`EA CA` and `EM CM` is described by `cor`, `u`, `lams`: there is a deformation gradient `F` that maps
`EA L` to `EM` and the conventional cell of the first lattice, combined by `cor`, to the one of the
second; `u` is its right stretch, that is the symmetric positive definite root of `Fᵀ F`; `lams` are the
eigenvalues of `u` in ascending order, with multiplicity. -/
structure ConsistentReport (EA EM CA CM : Matrix (Fin N) (Fin N) ℝ) (L : Matrix (Fin N) (Fin N) ℤ)
    (cor u : Matrix (Fin N) (Fin N) ℝ) (lams : List ℝ) : Prop where
  gradient : ∃ F : Matrix (Fin N) (Fin N) ℝ,
    F * (EA * L.map (Int.cast : ℤ → ℝ)) = EM ∧ F * (EA * CA) * cor = EM * CM ∧ u * u = Fᵀ * F
  posDef : u.PosDef
  sorted : lams.Pairwise (· ≤ ·)
  eigenvalues : u.charpoly = (lams.map fun x => Polynomial.X - Polynomial.C x).prod

end Verif.Spec
