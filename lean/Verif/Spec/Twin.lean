import Verif.Spec.Rank1

/-!
# Specification: twins

Nothing in this file refers to the model of the code.
-/

namespace Verif.Spec

open Matrix

/-- The rotation by 180 degrees about the unit vector `e`. -/
def halfTurn (e : Fin 3 → ℝ) : Matrix (Fin 3) (Fin 3) ℝ := (2 : ℝ) • vecMulVec e e - 1

/-- `V` is the stretch `U` seen from a rotated frame: the two are symmetry-related variants. -/
def Related (U V : Matrix (Fin 3) (Fin 3) ℝ) : Prop := ∃ G, IsRotation G ∧ V = G * U * Gᵀ

/-- `(Q, a, n)` solves the twinning equation `Q V - U = a ⊗ n` with a rotation `Q` and a unit normal. -/
structure SolvesTwin (U V Q : Matrix (Fin 3) (Fin 3) ℝ) (a n : Fin 3 → ℝ) : Prop where
  rotation : IsRotation Q
  unit : n ⬝ᵥ n = 1
  equation : Q * V - U = vecMulVec a n

/-- `(Q, a, n)` satisfies `Q V - U = a ⊗ n` where `a` and `n` are, entry by entry, the values under `rnd` of
an exact solution of the twinning equation. -/
def RoundedTwin (rnd : ℝ → ℝ) (U V Q : Matrix (Fin 3) (Fin 3) ℝ) (a n : Fin 3 → ℝ) : Prop :=
  ∃ Q₀ a₀ n₀, SolvesTwin U V Q₀ a₀ n₀ ∧ (∀ i, a i = rnd (a₀ i)) ∧ (∀ i, n i = rnd (n₀ i)) ∧
    Q * V - U = vecMulVec a n

/-- `e` is the axis of a half turn carrying `U` to `V`. -/
def IsTwinAxis (U V : Matrix (Fin 3) (Fin 3) ℝ) (e : Fin 3 → ℝ) : Prop :=
  e ⬝ᵥ e = 1 ∧ halfTurn e * U * (halfTurn e)ᵀ = V

/-- `det((U + f n ⊗ a)(U + f a ⊗ n) - I)`: it vanishes iff the laminate of `U` and `U + a ⊗ n` with volume
fraction `f` has a stretch equal to one, as an interface with the undeformed parent requires. -/
noncomputable def interfaceDet (U : Matrix (Fin 3) (Fin 3) ℝ) (a n : Fin 3 → ℝ) (f : ℝ) : ℝ :=
  ((U + f • vecMulVec n a) * (U + f • vecMulVec a n) - 1).det

/-- The deformation `F` can meet the undeformed parent at the plane with unit normal `m`: some rotation of `F`
is `1 + b ⊗ m`. -/
def HabitPlane (F : Matrix (Fin 3) (Fin 3) ℝ) (b m : Fin 3 → ℝ) : Prop :=
  m ⬝ᵥ m = 1 ∧ ∃ P, IsRotation P ∧ P * F = 1 + vecMulVec b m

end Verif.Spec
