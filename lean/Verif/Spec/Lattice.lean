import Mathlib.Analysis.Matrix.Normed
import Mathlib.LinearAlgebra.Matrix.NonsingularInverse

/-!
# Specification: point lattices and their symmetries

Nothing in this file refers to the model of the code.
-/

namespace Verif.Spec

open Matrix

/-- The points generated by the columns of `E`: all integer combinations. -/
def latticePoints {n : ℕ} (E : Matrix (Fin n) (Fin n) ℝ) : Set (Fin n → ℝ) :=
  {x | ∃ c : Fin n → ℤ, x = E *ᵥ (fun i => (c i : ℝ))}

/-- `Q` is an orthogonal matrix that maps the lattice with basis `E` onto itself. -/
def InPointGroup {n : ℕ} (E Q : Matrix (Fin n) (Fin n) ℝ) : Prop :=
  Q * Qᵀ = 1 ∧ (fun x => Q *ᵥ x) '' latticePoints E = latticePoints E

/-- All entries are integers. -/
def IsIntegral {m n : ℕ} (A : Matrix (Fin m) (Fin n) ℝ) : Prop := ∀ i j, ∃ z : ℤ, A i j = z

/-- The list `g` of real matrices is a group of symmetries of the lattice with basis `E`: pairwise
distinct, closed under products and inverses, containing the identity, every member orthogonal and
mapping the lattice onto itself. -/
structure IsSymmetryGroup {n : ℕ} (E : Matrix (Fin n) (Fin n) ℝ)
    (g : List (Matrix (Fin n) (Fin n) ℝ)) : Prop where
  nodup : g.Nodup
  one : 1 ∈ g
  mul : ∀ A ∈ g, ∀ B ∈ g, A * B ∈ g
  inv : ∀ A ∈ g, ∃ B ∈ g, A * B = 1
  sym : ∀ A ∈ g, InPointGroup E A

end Verif.Spec
