import Mathlib.LinearAlgebra.Matrix.Charpoly.Basic
import Mathlib.Analysis.SpecialFunctions.Pow.Real

/-!
# Specification: orthogonal maps, lattice symmetries, perfect matches

A basis is a matrix whose columns are the basis vectors.  Nothing in this file refers to the model.
-/

namespace Verif.Spec

open Matrix

variable {N : ℕ}

/-- Orthogonal matrix. -/
def IsOrtho (Q : Matrix (Fin N) (Fin N) ℝ) : Prop := Qᵀ * Q = 1

/-- The integer matrix `M` describes a symmetry of the lattice with basis `E`: the change of basis
`E M` is the image of `E` under an orthogonal map. -/
def IsLatticeSym (E : Matrix (Fin N) (Fin N) ℝ) (M : Matrix (Fin N) (Fin N) ℤ) : Prop :=
  ∃ Q, IsOrtho Q ∧ Q * E = E * M.map (Int.cast : ℤ → ℝ)

/-- The vectors `E₁ L` are carried onto the basis `E₂` by an orthogonal map. -/
def PerfectMatch (E₁ E₂ : Matrix (Fin N) (Fin N) ℝ) (L : Matrix (Fin N) (Fin N) ℤ) : Prop :=
  ∃ Q, IsOrtho Q ∧ Q * (E₁ * L.map (Int.cast : ℤ → ℝ)) = E₂

/-- `lam` lists the eigenvalues of `A` with multiplicity. -/
def IsEigenvalues (A : Matrix (Fin N) (Fin N) ℝ) (lam : Fin N → ℝ) : Prop :=
  A.charpoly = ∏ i, (Polynomial.X - Polynomial.C (lam i))

/-- How far the deformation that carries the basis `E₁ L` to the basis `E₂` is from a rotation: the squared norm of
`C⁻¹ - 1`, `C` the Cauchy-Green tensor `Fᵀ F` of the deformation gradient `F = E₂ (E₁ L)⁻¹`. -/
noncomputable def mismatch (E₁ E₂ : Matrix (Fin N) (Fin N) ℝ) (L : Matrix (Fin N) (Fin N) ℤ) : ℝ :=
  ∑ i, ∑ j, ((E₁ * L.map (Int.cast : ℤ → ℝ) * E₂⁻¹ * (E₁ * L.map (Int.cast : ℤ → ℝ) * E₂⁻¹)ᵀ - 1) i j) ^ 2

end Verif.Spec
