import Mathlib.Data.Matrix.Mul
import Mathlib.Data.Set.Card
import Verif.Spec.MatGroup
import Mathlib.LinearAlgebra.Matrix.Determinant.Basic

/-!
# Specification: lattice correspondences up to symmetry

Nothing in this file refers to the model of the code.
-/

namespace Verif.Spec

variable {n : ℕ}

/-- `L'` is symmetry equivalent to `L` : `L' = M₁ L M₂` with `M₁`, `M₂` from the two lattice groups. -/
def Equivalent (GA GM : List (Matrix (Fin n) (Fin n) ℤ)) (L L' : Matrix (Fin n) (Fin n) ℤ) : Prop :=
  ∃ M₁ ∈ GA, ∃ M₂ ∈ GM, L' = M₁ * L * M₂

/-- The symmetry classes of those non-singular candidates in `cs` that are strictly closer than `d`. -/
def betterClasses {D : Type} [LT D] (GA GM : List (Matrix (Fin n) (Fin n) ℤ))
    (dist : Matrix (Fin n) (Fin n) ℤ → D) (cs : List (Matrix (Fin n) (Fin n) ℤ)) (d : D) :
    Set (Set (Matrix (Fin n) (Fin n) ℤ)) :=
  {K | ∃ c ∈ cs, c.det ≠ 0 ∧ dist c < d ∧ K = {L | Equivalent GA GM c L}}

/-- The list `sols` of (correspondence, distance) pairs is the right answer for the candidates `cs`
when `nsol` solutions are asked for: sorted, true distances, no two equivalent entries, and the
entries cover exactly those candidates (up to symmetry) that are non-singular and have fewer than
`nsol` strictly better classes. -/
structure BestClasses {D : Type} [LinearOrder D] (GA GM : List (Matrix (Fin n) (Fin n) ℤ))
    (dist : Matrix (Fin n) (Fin n) ℤ → D) (nsol : ℕ) (cs : List (Matrix (Fin n) (Fin n) ℤ))
    (sols : List (Matrix (Fin n) (Fin n) ℤ × D)) : Prop where
  sorted : sols.Pairwise (fun s t => s.2 ≤ t.2)
  distances : ∀ s ∈ sols, s.2 = dist s.1
  inequivalent : sols.Pairwise (fun s t => ¬ Equivalent GA GM s.1 t.1)
  from_candidates : ∀ s ∈ sols, s.1 ∈ cs
  complete : ∀ L ∈ cs, (∃ s ∈ sols, Equivalent GA GM s.1 L) ↔
    L.det ≠ 0 ∧ (betterClasses GA GM dist cs (dist L)).ncard < nsol

end Verif.Spec
