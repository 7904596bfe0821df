import Mathlib.Analysis.SpecialFunctions.Trigonometric.Basic
import Mathlib.LinearAlgebra.Matrix.NonsingularInverse
import Verif.Model.Util
import Verif.Model.MainHnf

/-!
# Model of `structrans/crystallography/matrix_group.py`

Floating point arrays are modelled by exact real matrices.  `np.allclose(a, b)` is
`|a - b| ≤ atol + rtol * |b|` entrywise; the two tolerances are a parameter `Tol`, with the values used by
the code (`Tol.code`) and the idealised exact comparison (`Tol.exact`).
-/

namespace Verif.Model

open Matrix

/-- The tolerances of `np.allclose`.  `matrix_group.py` line 130, `lattice.py` lines 80, 184 and 207. -/
structure Tol where
  atol : ℝ
  rtol : ℝ

/-- The numpy defaults `atol=1e-8`, `rtol=1e-5`.  `lattice.py` lines 80 and 184 pass `atol=1E-8`
and leave `rtol` at its default. -/
noncomputable def Tol.code : Tol := ⟨1 / 10 ^ 8, 1 / 10 ^ 5⟩

/-- Exact comparison.  Not part of the program. -/
def Tol.exact : Tol := ⟨0, 0⟩

/-- `np.allclose(A, B)` for arrays of one shape.  `matrix_group.py` line 130, `lattice.py` lines 80, 184 and
207. -/
def allclose (t : Tol) {m n : ℕ} (A B : Matrix (Fin m) (Fin n) ℝ) : Prop :=
  ∀ i j, |A i j - B i j| ≤ t.atol + t.rtol * |B i j|

/-- A 2-D numpy array as found in the group tables: integer or floating point `dtype`.  `matrix_group.py`
lines 138-229. -/
inductive NMat (n : ℕ)
  | int (M : Matrix (Fin n) (Fin n) ℤ)
  | float (M : Matrix (Fin n) (Fin n) ℝ)

/-- The values stored in the array.  `matrix_group.py` lines 138-229. -/
noncomputable def NMat.val {n : ℕ} : NMat n → Matrix (Fin n) (Fin n) ℝ
  | .int M => M.map (Int.cast : ℤ → ℝ)
  | .float M => M

/-- `matrix_group.py` lines 138-172, `CUBIC_LAUE_GROUP`. -/
def cubicLaue : List (Matrix (Fin 3) (Fin 3) ℤ) := [
  !![1, 0, 0; 0, 1, 0; 0, 0, 1],
  !![1, 0, 0; 0, -1, 0; 0, 0, -1],
  !![-1, 0, 0; 0, 1, 0; 0, 0, -1],
  !![-1, 0, 0; 0, -1, 0; 0, 0, 1],
  !![0, 1, 0; 1, 0, 0; 0, 0, -1],
  !![0, -1, 0; -1, 0, 0; 0, 0, -1],
  !![0, 0, 1; 0, -1, 0; 1, 0, 0],
  !![0, 0, -1; 0, -1, 0; -1, 0, 0],
  !![-1, 0, 0; 0, 0, 1; 0, 1, 0],
  !![-1, 0, 0; 0, 0, -1; 0, -1, 0],
  !![1, 0, 0; 0, 0, -1; 0, 1, 0],
  !![1, 0, 0; 0, 0, 1; 0, -1, 0],
  !![0, 0, 1; 0, 1, 0; -1, 0, 0],
  !![0, 0, -1; 0, 1, 0; 1, 0, 0],
  !![0, -1, 0; 1, 0, 0; 0, 0, 1],
  !![0, 1, 0; -1, 0, 0; 0, 0, 1],
  !![0, 1, 0; 0, 0, 1; 1, 0, 0],
  !![0, 0, 1; 1, 0, 0; 0, 1, 0],
  !![0, 0, -1; -1, 0, 0; 0, 1, 0],
  !![0, -1, 0; 0, 0, 1; -1, 0, 0],
  !![0, 1, 0; 0, 0, -1; -1, 0, 0],
  !![0, 0, -1; 1, 0, 0; 0, -1, 0],
  !![0, 0, 1; -1, 0, 0; 0, -1, 0],
  !![0, -1, 0; 0, 0, -1; 1, 0, 0]]

/-- `matrix_group.py` line 174, `__C1`. -/
noncomputable def hexC : ℝ := Real.cos (Real.pi / 3)

/-- `matrix_group.py` line 175, `__S1`. -/
noncomputable def hexS : ℝ := Real.sin (Real.pi / 3)

/-- `matrix_group.py` lines 176-191, `HEX_LAUE_GROUP`.  `matrices()` converts each entry to an array
separately, so the first four have an integer `dtype`. -/
noncomputable def hexLaue : List (NMat 3) := [
  .int !![1, 0, 0; 0, 1, 0; 0, 0, 1],
  .int !![1, 0, 0; 0, -1, 0; 0, 0, -1],
  .int !![-1, 0, 0; 0, 1, 0; 0, 0, -1],
  .int !![-1, 0, 0; 0, -1, 0; 0, 0, 1],
  .float !![hexC, -hexS, 0; hexS, hexC, 0; 0, 0, 1],
  .float !![hexC, hexS, 0; -hexS, hexC, 0; 0, 0, 1],
  .float !![-hexC, -hexS, 0; hexS, -hexC, 0; 0, 0, 1],
  .float !![-hexC, hexS, 0; -hexS, -hexC, 0; 0, 0, 1],
  .float !![hexC, -hexS, 0; -hexS, -hexC, 0; 0, 0, -1],
  .float !![hexC, hexS, 0; hexS, -hexC, 0; 0, 0, -1],
  .float !![-hexC, -hexS, 0; -hexS, hexC, 0; 0, 0, -1],
  .float !![-hexC, hexS, 0; hexS, hexC, 0; 0, 0, -1]]

/-- `matrix_group.py` lines 194-211, `SQUARE_EXT_GROUP`. -/
def squareExt : List (Matrix (Fin 2) (Fin 2) ℤ) := [
  !![1, 0; 0, 1], !![0, -1; 1, 0], !![0, 1; -1, 0], !![-1, 0; 0, -1],
  !![1, 0; 0, -1], !![-1, 0; 0, 1], !![0, 1; 1, 0], !![0, -1; -1, 0]]

/-- `matrix_group.py` line 212, `SQUARE_GROUP`. -/
def squareRot : List (Matrix (Fin 2) (Fin 2) ℤ) := squareExt.take 4

/-- `matrix_group.py` lines 214-228, `HEX2D_EXT_GROUP`. -/
noncomputable def hex2dExt : List (NMat 2) := [
  .int !![1, 0; 0, 1],
  .float !![hexC, -hexS; hexS, hexC],
  .float !![-hexC, -hexS; hexS, -hexC],
  .int !![-1, 0; 0, -1],
  .float !![hexC, hexS; -hexS, hexC],
  .float !![-hexC, hexS; -hexS, -hexC],
  .int !![1, 0; 0, -1],
  .float !![hexC, -hexS; -hexS, -hexC],
  .float !![hexC, hexS; hexS, -hexC],
  .int !![-1, 0; 0, 1],
  .float !![-hexC, -hexS; -hexS, hexC],
  .float !![-hexC, hexS; hexS, hexC]]

/-- `matrix_group.py` line 229, `HEX2D_GROUP`. -/
noncomputable def hex2dRot : List (NMat 2) := hex2dExt.take 6

open Classical in
/-- `matrix_group.py` lines 128-132: the inner loop looking for a match of `m1`. -/
noncomputable def hasMatch (t : Tol) {n : ℕ} (m1 : Matrix (Fin n) (Fin n) ℝ) :
    List (Matrix (Fin n) (Fin n) ℝ) → Bool
  | [] => false
  | m2 :: ms => if allclose t m1 m2 then true else hasMatch t m1 ms

/-- `matrix_group.py` lines 127-136: the outer loop. -/
noncomputable def allMatch (t : Tol) {n : ℕ} (G : List (Matrix (Fin n) (Fin n) ℝ)) :
    List (Matrix (Fin n) (Fin n) ℝ) → Bool
  | [] => true
  | m1 :: ms => if hasMatch t m1 G then allMatch t G ms else false

/-- `matrix_group.py` lines 113-136, `G.hassubgroup(g)` for two groups of one dimension;
lines 124-125 test the orders. -/
noncomputable def hasSubgroup (t : Tol) {n : ℕ} (G g : List (Matrix (Fin n) (Fin n) ℝ)) : Bool :=
  if (g.length : ℤ) ∈ divisors G.length then allMatch t G g else false

end Verif.Model
