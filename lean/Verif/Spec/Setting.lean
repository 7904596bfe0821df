import Verif.Spec.Dist
import Verif.Spec.LatCor

/-!
# Specification: a valid input of the direct search

Nothing in this file refers to the model.
-/

namespace Verif.Spec

open Matrix

variable {N : ℕ}

/-- What the direct search needs: two bases (columns), the inverse of the second one, for each a group of
lattice symmetries (not necessarily all of them; that of the first contains the inversion), and a
positive lower bound `alpha` of `‖F Fᵀ‖²`, `F = EA X EM⁻¹`, over all matrices `X` of norm 1. -/
structure SearchSetting (EA EM EMinv : Matrix (Fin N) (Fin N) ℝ)
    (GA GM : List (Matrix (Fin N) (Fin N) ℤ)) (alpha : ℝ) : Prop where
  invA : IsUnit EA.det
  invM : EM * EMinv = 1
  groupA : IsMatGroup GA
  groupM : IsMatGroup GM
  symA : ∀ M ∈ GA, IsLatticeSym EA M
  symM : ∀ M ∈ GM, IsLatticeSym EM M
  negA : -1 ∈ GA
  pos : 0 < alpha
  bound : ∀ X : Matrix (Fin N) (Fin N) ℝ, ∑ i, ∑ j, X i j ^ 2 = 1 →
    alpha ≤ ∑ i, ∑ j, (((EA * X * EMinv) * (EA * X * EMinv)ᵀ) i j) ^ 2

/-- A search setting with complete groups: two bases (columns), the inverse of the second one, the complete lattice groups of both, and a
positive lower bound `alpha` of `‖F Fᵀ‖²`, `F = EA X EM⁻¹`, over all matrices `X` of norm 1. -/
structure ValidSetting (EA EM EMinv : Matrix (Fin N) (Fin N) ℝ)
    (GA GM : List (Matrix (Fin N) (Fin N) ℤ)) (alpha : ℝ) : Prop where
  invA : IsUnit EA.det
  invM : EM * EMinv = 1
  groupA : IsMatGroup GA
  groupM : IsMatGroup GM
  symA : ∀ M, M ∈ GA ↔ IsLatticeSym EA M
  symM : ∀ M, M ∈ GM ↔ IsLatticeSym EM M
  pos : 0 < alpha
  bound : ∀ X : Matrix (Fin N) (Fin N) ℝ, ∑ i, ∑ j, X i j ^ 2 = 1 →
    alpha ≤ ∑ i, ∑ j, (((EA * X * EMinv) * (EA * X * EMinv)ᵀ) i j) ^ 2

theorem ValidSetting.search {EA EM EMinv : Matrix (Fin N) (Fin N) ℝ}
    {GA GM : List (Matrix (Fin N) (Fin N) ℤ)} {alpha : ℝ} (h : ValidSetting EA EM EMinv GA GM alpha) :
    SearchSetting EA EM EMinv GA GM alpha where
  invA := h.invA
  invM := h.invM
  groupA := h.groupA
  groupM := h.groupM
  symA := fun M hM => (h.symA M).mp hM
  symM := fun M hM => (h.symM M).mp hM
  negA := by
    rw [h.symA]
    refine ⟨-1, by simp [IsOrtho], ?_⟩
    have : (-1 : Matrix (Fin N) (Fin N) ℤ).map (Int.cast : ℤ → ℝ) = -1 := by
      ext i j
      simp [Matrix.one_apply, apply_ite]
    rw [this]
    simp
  pos := h.pos
  bound := h.bound

end Verif.Spec
