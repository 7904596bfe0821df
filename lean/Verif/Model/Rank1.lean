import Mathlib.Data.List.Sort
import Mathlib.Data.Matrix.Mul
import Mathlib.LinearAlgebra.Matrix.NonsingularInverse
import Verif.Model.Basic
import Verif.Model.Rotation

/-!
# Model of the rank-one solvers

`structrans/util/utils.py` (`pos_def_sym`, `sort_eig`, `solve_rank1`), `structrans/mat_math.py`
(`eigSort`), `structrans/marttrans/Compatibility.py` (`isCompatible`, `AM_Solver`) and
`structrans/marttrans/twin.py` (`_solve_am`).

`numpy.linalg.eig` is a parameter `eig`; what it promises for symmetric matrices is stated in
`Verif.Spec.EigOK`.  Only its real parts are used by the code (`.real` in `sort_eig`); `_solve_am`
line 486 uses the result as it is, which for symmetric matrices is real.  Arrays are 3 × 3 and numbers
are exact.
-/

namespace Verif.Model

open Matrix

/-- 3-vectors.  `utils.py` lines 110-117. -/
abbrev V3 := Fin 3 → ℝ

/-- The result of `eig`: eigenvalues and, for each, the eigenvector (the columns of the second array).
`utils.py` line 24. -/
structure EigRes where
  vals : Fin 3 → ℝ
  vecs : Fin 3 → V3

/-- `general_imports.py` line 14, `SMALL`. -/
noncomputable def small : ℝ := 1 / 10 ^ 12

/-- The order used by `sorted(e, key=lambda x: x[0])`.  `utils.py` line 26, `mat_math.py` line 97,
`Compatibility.py` line 42. -/
def byVal (a b : ℝ × V3) : Prop := a.1 ≤ b.1

open Classical in
/-- `utils.py` lines 18-29, `sort_eig`, and `mat_math.py` lines 94-100, `eigSort`: the pairs (eigenvalue,
eigenvector) sorted by eigenvalue; Python's sort is stable, and so is `insertionSort`. -/
noncomputable def sortEig (eig : Matrix (Fin 3) (Fin 3) ℝ → EigRes) (A : Matrix (Fin 3) (Fin 3) ℝ) : EigRes :=
  let r := eig A
  let l := ((List.finRange 3).map fun i => (r.vals i, r.vecs i)).insertionSort byVal
  ⟨fun i => (l.getD i (0, 0)).1, fun i => (l.getD i (0, 0)).2⟩

/-- `la.norm(A.reshape(9))`.  `utils.py` lines 14-16, `Compatibility.py` line 37. -/
noncomputable def fnorm (A : Matrix (Fin 3) (Fin 3) ℝ) : ℝ := Real.sqrt (∑ i, ∑ j, A i j ^ 2)

/-- `utils.py` lines 10-16, `pos_def_sym`.  `is_3_by_3` (lines 4-8) is true of every array, because
`is not` compares identities. -/
def posDefSym (U : Matrix (Fin 3) (Fin 3) ℝ) : Prop := 0 < U.det ∧ fnorm (U - Uᵀ) < 1 / 10 ^ 6

/-- Results of the solvers: Python's `None`, arrays containing NaN, or two solutions.  `utils.py` lines
95-124, `twin.py` lines 462-492, `Compatibility.py` lines 36-65. -/
inductive AMRes (α : Type)
  | nothing
  | nan
  | two (x y : α)

/-- `utils.py` lines 110-111 (`twin.py` 478-479, `Compatibility.py` 56-57): `m1` for `s = kappa`, `m2` for
`s = -kappa`, before normalisation. -/
noncomputable def amM (e : EigRes) (c c1 c3 s : ℝ) : V3 :=
  ((Real.sqrt (e.vals 2) - Real.sqrt (e.vals 0)) / c) • (-(c1 • e.vecs 0) + (s * c3) • e.vecs 2)

/-- `utils.py` lines 116-117 (`twin.py` 484-485, `Compatibility.py` 62-63): `b1` for `s = kappa`, `b2` for
`s = -kappa`. -/
noncomputable def amB (e : EigRes) (c c1 c3 rho s : ℝ) : V3 :=
  rho • ((Real.sqrt (e.vals 2) * c1 / c) • e.vecs 0 + (s * (Real.sqrt (e.vals 0) * c3 / c)) • e.vecs 2)

/-- `utils.py` lines 110-117: one pair `(b, m)`. -/
noncomputable def amPair (e : EigRes) (c c1 c3 s : ℝ) : V3 × V3 :=
  let m := amM e c c1 c3 s
  let rho := vnorm m
  (amB e c c1 c3 rho s, rho⁻¹ • m)

open Classical in
/-- `utils.py` lines 89-124, `solve_rank1`.  `np.sqrt` of a negative number and division by a vanishing
norm give NaN. -/
noncomputable def solveRank1 (eig : Matrix (Fin 3) (Fin 3) ℝ → EigRes) (C : Matrix (Fin 3) (Fin 3) ℝ) :
    Except Err (AMRes (V3 × V3)) :=
  if ¬ posDefSym C then .error .typeError
  else
    let e := sortEig eig C
    let c := Real.sqrt (e.vals 2 - e.vals 0)
    let c1 := Real.sqrt |1 - e.vals 0|
    let c3 := Real.sqrt |e.vals 2 - 1|
    if c < small then .ok .nothing
    else if e.vals 0 < 0 ∨ e.vals 2 < 0 ∨ amM e c c1 c3 1 = 0 ∨ amM e c c1 c3 (-1) = 0 then .ok .nan
    else .ok (.two (amPair e c c1 c3 1) (amPair e c c1 c3 (-1)))

/-- `twin.py` lines 486-488: the square root of `C` by way of its eigenvectors. -/
noncomputable def eigSqrt (r : EigRes) : Matrix (Fin 3) (Fin 3) ℝ :=
  let vc : Matrix (Fin 3) (Fin 3) ℝ := Matrix.of fun i j => r.vecs j i
  vc * Matrix.diagonal (fun i => Real.sqrt (r.vals i)) * vc⁻¹

open Classical in
/-- `twin.py` lines 458-492, `_solve_am`.  `math.sqrt` of a negative number raises `ValueError`,
`la.inv` of a singular matrix `LinAlgError`. -/
noncomputable def solveAm (eig : Matrix (Fin 3) (Fin 3) ℝ → EigRes) (C : Matrix (Fin 3) (Fin 3) ℝ) :
    Except Err (AMRes (Matrix (Fin 3) (Fin 3) ℝ × V3 × V3)) :=
  if ¬ posDefSym C then .error .typeError
  else
    let e := sortEig eig C
    let c := Real.sqrt (e.vals 2 - e.vals 0)
    let c1 := Real.sqrt |1 - e.vals 0|
    let c3 := Real.sqrt |e.vals 2 - 1|
    if c < small then .ok .nothing
    else if e.vals 0 < 0 ∨ e.vals 2 < 0 then .error .valueError
    else if amM e c c1 c3 1 = 0 ∨ amM e c c1 c3 (-1) = 0 then .ok .nan
    else
      let r := eig C
      if (Matrix.of fun i j => r.vecs j i : Matrix (Fin 3) (Fin 3) ℝ).det = 0 then .error .linAlgError
      else if (eigSqrt r).det = 0 then .error .linAlgError
      else
        let p := amPair e c c1 c3 1
        let q := amPair e c c1 c3 (-1)
        .ok (.two ((1 + outer p.1 p.2) * (eigSqrt r)⁻¹, p) ((1 + outer q.1 q.2) * (eigSqrt r)⁻¹, q))

open Classical in
/-- `Compatibility.py` lines 30-65, `AM_Solver`. -/
noncomputable def amSolver (eig : Matrix (Fin 3) (Fin 3) ℝ → EigRes) (A : Matrix (Fin 3) (Fin 3) ℝ) :
    Except Err (AMRes (V3 × V3)) :=
  if 1 / 10 ^ 9 < fnorm (Aᵀ - A) then .error .compatibilityError
  else
    let e := sortEig eig A
    if e.vals 2 - e.vals 0 < 0 ∨ 1 - e.vals 0 < 0 ∨ e.vals 2 - 1 < 0 then .error .valueError
    else
      let c := Real.sqrt (e.vals 2 - e.vals 0)
      let c1 := Real.sqrt (1 - e.vals 0)
      let c3 := Real.sqrt (e.vals 2 - 1)
      if c < 1 / 10 ^ 6 then .ok .nothing
      else if |e.vals 1 - 1| < 1 / 10 ^ 4 then
        if e.vals 2 < 0 ∨ e.vals 0 < 0 then .error .valueError
        else if amM e c c1 c3 1 = 0 ∨ amM e c c1 c3 (-1) = 0 then .ok .nan
        else .ok (.two (amPair e c c1 c3 1) (amPair e c c1 c3 (-1)))
      else .ok .nothing

open Classical in
/-- `Compatibility.py` lines 13-27, `isCompatible`; `none` is an argument that is not an array. -/
noncomputable def isCompatible (eig : Matrix (Fin 3) (Fin 3) ℝ → EigRes) :
    Option (Matrix (Fin 3) (Fin 3) ℝ) → Option (Matrix (Fin 3) (Fin 3) ℝ) → Except Err Bool
  | some A, some B =>
    if B.det = 0 then .error .linAlgError
    else
      let C := ((Bᵀ)⁻¹ * Aᵀ) * (A * B⁻¹)
      let e := sortEig eig C
      .ok (decide (|e.vals 1| - 1 < 1 / 10 ^ 5))
  | _, _ => .ok false

end Verif.Model
