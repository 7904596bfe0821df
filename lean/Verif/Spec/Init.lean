import Verif.Spec.LatCor

/-!
# Specification: the random initialisation of the direct search

Nothing in this file refers to the model of the code.
-/

namespace Verif.Spec

variable {n : ℕ}

/-- The matrices the initialisation can draw: those differing from `L0` by at most one per entry. -/
def NearBy (L0 L : Matrix (Fin n) (Fin n) ℤ) : Prop := ∀ i j, |L i j - L0 i j| ≤ 1

/-- An infinite sequence of draws in which every matrix near `L0` comes up again and again; a sequence
of independent uniform draws is one with probability one. -/
def FairDraws (L0 : Matrix (Fin n) (Fin n) ℤ) (draw : ℕ → Matrix (Fin n) (Fin n) ℤ) : Prop :=
  (∀ k, NearBy L0 (draw k)) ∧ ∀ L, NearBy L0 L → ∀ k, ∃ m ≥ k, draw m = L

/-- Near `L0` there is a matrix of determinant one for which `nsol` pairwise inequivalent matrices of
determinant one near `L0` are strictly better. -/
def EnoughNearBy {D : Type} [LT D] (GA GM : List (Matrix (Fin n) (Fin n) ℤ))
    (dist : Matrix (Fin n) (Fin n) ℤ → D) (L0 : Matrix (Fin n) (Fin n) ℤ) (nsol : ℕ) : Prop :=
  ∃ c, NearBy L0 c ∧ c.det = 1 ∧ ∃ better : List (Matrix (Fin n) (Fin n) ℤ),
    better.length = nsol ∧ better.Pairwise (fun a b => ¬ Equivalent GA GM a b) ∧
    ∀ b ∈ better, NearBy L0 b ∧ b.det = 1 ∧ dist b < dist c

/-- There are `count` pairwise inequivalent matrices of determinant one near `L0`. -/
def ManyNearBy (GA GM : List (Matrix (Fin n) (Fin n) ℤ)) (L0 : Matrix (Fin n) (Fin n) ℤ) (count : ℕ) :
    Prop :=
  ∃ reps : List (Matrix (Fin n) (Fin n) ℤ), reps.length = count ∧
    reps.Pairwise (fun a b => ¬ Equivalent GA GM a b) ∧ ∀ r ∈ reps, NearBy L0 r ∧ r.det = 1

/-- All matrices of determinant one near `L0` are equivalent to one of at most `nsol` matrices. -/
def FewNearBy (GA GM : List (Matrix (Fin n) (Fin n) ℤ)) (L0 : Matrix (Fin n) (Fin n) ℤ) (nsol : ℕ) :
    Prop :=
  ∃ reps : List (Matrix (Fin n) (Fin n) ℤ), reps.length ≤ nsol ∧
    ∀ L, NearBy L0 L → L.det = 1 → ∃ r ∈ reps, Equivalent GA GM r L

end Verif.Spec
