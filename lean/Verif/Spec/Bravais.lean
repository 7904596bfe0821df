import Mathlib.Analysis.SpecialFunctions.Trigonometric.Basic
import Mathlib.LinearAlgebra.Matrix.Notation

/-!
# Specification: unit cells with prescribed lengths and angles

Nothing in this file refers to the model of the code.
-/

namespace Verif.Spec

/-- Number of parameters of the 14 three-dimensional Bravais types. -/
def paramCount3 : ℤ → ℕ
  | 1 | 2 | 3 => 1            -- cubic: a
  | 4 | 5 | 6 | 7 => 2        -- hexagonal: a, c; rhombohedral: a, alpha; tetragonal: a, c
  | 8 | 9 | 10 | 11 => 3      -- orthorhombic: a, b, c
  | 12 | 13 => 4              -- monoclinic: a, b, c, beta
  | 14 => 6                   -- triclinic: a, b, c, alpha, beta, gamma
  | _ => 0

/-- Number of parameters of the 5 two-dimensional Bravais types. -/
def paramCount2 : ℤ → ℕ
  | 1 => 1    -- square: a
  | 2 => 2    -- rectangular: a, b
  | 3 => 2    -- centred rectangular: a, b
  | 4 => 1    -- hexagonal: a
  | 5 => 3    -- oblique: a, b, gamma
  | _ => 0

/-- Edge lengths of the conventional cell. -/
def lengths3 (id : ℤ) (p : ℕ → ℝ) : Fin 3 → ℝ :=
  if id ≤ 3 ∨ id = 5 then ![p 0, p 0, p 0]
  else if id ≤ 7 then ![p 0, p 0, p 1]
  else ![p 0, p 1, p 2]

/-- Angles `α`, `β`, `γ` of the conventional cell in degrees (`α` between the second and the third
edge, and so on).  Hexagonal cells of this package have `γ = 60`. -/
def angles3 (id : ℤ) (p : ℕ → ℝ) : Fin 3 → ℝ :=
  if id = 4 then ![90, 90, 60]
  else if id = 5 then ![p 1, p 1, p 1]
  else if id = 12 ∨ id = 13 then ![90, p 3, 90]
  else if id = 14 then ![p 3, p 4, p 5]
  else ![90, 90, 90]

/-- The cosine of an angle given in degrees. -/
noncomputable def cosDeg (x : ℝ) : ℝ := Real.cos (x * Real.pi / 180)

/-- The matrix of scalar products of three edges with given lengths and angles. -/
noncomputable def metric3 (l a : Fin 3 → ℝ) : Matrix (Fin 3) (Fin 3) ℝ :=
  !![l 0 * l 0, l 0 * l 1 * cosDeg (a 2), l 0 * l 2 * cosDeg (a 1);
     l 1 * l 0 * cosDeg (a 2), l 1 * l 1, l 1 * l 2 * cosDeg (a 0);
     l 2 * l 0 * cosDeg (a 1), l 2 * l 1 * cosDeg (a 0), l 2 * l 2]

/-- Three angles (degrees) that occur between three linearly independent vectors. -/
def Feasible3 (a : Fin 3 → ℝ) : Prop :=
  (∀ i, 0 < a i ∧ a i < 180) ∧
    0 < 1 + 2 * cosDeg (a 0) * cosDeg (a 1) * cosDeg (a 2) - cosDeg (a 0) ^ 2 - cosDeg (a 1) ^ 2
      - cosDeg (a 2) ^ 2

/-- Edge lengths of the conventional cell in two dimensions. -/
def lengths2 (id : ℤ) (p : ℕ → ℝ) : Fin 2 → ℝ :=
  if id = 1 ∨ id = 4 then ![p 0, p 0] else ![p 0, p 1]

/-- The angle (degrees) between the edges of the conventional cell in two dimensions. -/
def angle2 (id : ℤ) (p : ℕ → ℝ) : ℝ := if id = 4 then 60 else if id = 5 then p 2 else 90

/-- The matrix of scalar products of two edges. -/
noncomputable def metric2 (l : Fin 2 → ℝ) (γ : ℝ) : Matrix (Fin 2) (Fin 2) ℝ :=
  !![l 0 * l 0, l 0 * l 1 * cosDeg γ; l 1 * l 0 * cosDeg γ, l 1 * l 1]

/-- Lattice points per conventional cell: 1 for primitive, 4 for face-centred, 2 for body- and
base-centred types. -/
def pointsPerCell3 : ℤ → ℤ
  | 2 | 10 => 4
  | 3 | 7 | 11 | 9 | 13 => 2
  | _ => 1

def pointsPerCell2 : ℤ → ℤ
  | 3 => 2
  | _ => 1

end Verif.Spec
