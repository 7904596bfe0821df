import Verif.Spec.Lattice

/-!
# Specification: the full rotation group of a lattice

Nothing in this file refers to the model of the code.
-/

namespace Verif.Spec

open Matrix

/-- `Q` is a proper rotation that maps the lattice with basis `E` onto itself. -/
def IsLatticeRotation {n : ℕ} (E Q : Matrix (Fin n) (Fin n) ℝ) : Prop :=
  InPointGroup E Q ∧ Q.det = 1

/-- The list `g` holds exactly the proper rotations that map the lattice onto itself, each once. -/
def IsFullLaueGroup {n : ℕ} (E : Matrix (Fin n) (Fin n) ℝ) (g : List (Matrix (Fin n) (Fin n) ℝ)) :
    Prop := g.Nodup ∧ ∀ Q, Q ∈ g ↔ IsLatticeRotation E Q

/-- The list `g` holds exactly the orthogonal matrices that map the lattice onto itself, each once. -/
def IsFullPointGroup {n : ℕ} (E : Matrix (Fin n) (Fin n) ℝ) (g : List (Matrix (Fin n) (Fin n) ℝ)) :
    Prop := g.Nodup ∧ ∀ Q, Q ∈ g ↔ InPointGroup E Q

end Verif.Spec
