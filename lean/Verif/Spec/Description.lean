import Verif.Spec.Dist
import Verif.Spec.Lattice

/-!
# Specification: different descriptions of one crystal

Nothing in this file refers to the model of the code.
-/

namespace Verif.Spec

open Matrix

/-- The bases `E` and `E'` describe the same crystal: the points generated by `E'` are those generated by `E`, turned
or reflected.  (The base vectors may be quite different.) -/
def SameCrystal {n : ℕ} (E E' : Matrix (Fin n) (Fin n) ℝ) : Prop :=
  ∃ R, IsOrtho R ∧ latticePoints E' = (fun x => R *ᵥ x) '' latticePoints E

/-- The crystal with the base `E'` is a sublattice of the one with the base `E`, up to a turn or reflection: after
turning it, all its points are points of the other. -/
def TurnedSublattice {n : ℕ} (E E' : Matrix (Fin n) (Fin n) ℝ) : Prop :=
  ∃ R, IsOrtho R ∧ (fun x => R *ᵥ x) '' latticePoints E' ⊆ latticePoints E

end Verif.Spec
