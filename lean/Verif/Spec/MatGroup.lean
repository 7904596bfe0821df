import Verif.Spec.Hnf

/-!
# Specification: finite matrix groups given as lists, and symmetry-related sublattices
-/

namespace Verif.Spec

open Matrix

/-- The members of the list `G` form a group under matrix multiplication. -/
structure IsMatGroup {R : Type} [CommRing R] {n : ℕ} (G : List (Matrix (Fin n) (Fin n) R)) : Prop where
  one_mem : (1 : Matrix (Fin n) (Fin n) R) ∈ G
  mul_mem : ∀ A ∈ G, ∀ B ∈ G, A * B ∈ G
  inv_mem : ∀ A ∈ G, ∃ B ∈ G, A * B = 1

/-- The symmetry operation `M` of the list maps the sublattice with basis `h` onto the
sublattice with basis `k`: `M h` and `k` differ by a change of basis. -/
def SymRelated {n : ℕ} (lg : List (Matrix (Fin n) (Fin n) ℤ)) (h k : Matrix (Fin n) (Fin n) ℤ) : Prop :=
  ∃ M ∈ lg, ∃ A, Unimodular A ∧ M * h * A = k

/-- `r` contains exactly one representative of every symmetry class occurring in `l`, and nothing
but members of `l`. -/
def OnePerClass {n : ℕ} (lg l r : List (Matrix (Fin n) (Fin n) ℤ)) : Prop :=
  (∀ h ∈ r, h ∈ l) ∧ r.Nodup ∧ ∀ h ∈ l, ∃! k, k ∈ r ∧ SymRelated lg h k

end Verif.Spec
