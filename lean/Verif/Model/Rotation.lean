import Mathlib.Analysis.SpecialFunctions.Trigonometric.Basic
import Mathlib.LinearAlgebra.CrossProduct
import Mathlib.LinearAlgebra.Matrix.Notation
import Mathlib.Data.Matrix.Mul
import Verif.Model.Basic

/-!
# Model of `rotation`, `Euler` (`structrans/util/utils.py`) and `skew` (`crystallography/spacegroup.py`)

Floating point numbers are exact reals.  A division by a vanishing norm gives an array of NaNs, modelled
by `none`.  `unit is "deg"` is a comparison of identities; it is modelled as the comparison of the
strings, as CPython interns both literals.  Axes and angles are vectors of three numbers (`np.cross`
and the index raise for others, not modelled).
-/

namespace Verif.Model

open Matrix

/-- `la.norm` of a vector.  `utils.py` lines 73, 83 and 84. -/
noncomputable def vnorm {n : ℕ} (v : Fin n → ℝ) : ℝ := Real.sqrt (v ⬝ᵥ v)

/-- `v / la.norm(v)`; `none` stands for the NaNs of a vanishing vector.  `utils.py` lines 73, 83 and 84. -/
noncomputable def unitVec {n : ℕ} (v : Fin n → ℝ) : Option (Fin n → ℝ) :=
  if vnorm v = 0 then none else some ((vnorm v)⁻¹ • v)

/-- The angle in radians: `radians(angle) if unit is "deg" else angle` (`utils.py` lines 62, 74). -/
noncomputable def angleOf (deg : Bool) (angle : ℝ) : ℝ := if deg then angle * Real.pi / 180 else angle

/-- `np.outer`.  `utils.py` lines 85-87. -/
def outer {n : ℕ} (a b : Fin n → ℝ) : Matrix (Fin n) (Fin n) ℝ := fun i j => a i * b j

/-- `utils.py` lines 67-87, `rotation`. -/
noncomputable def rotation (angle : ℝ) (axis : Fin 3 → ℝ) (deg : Bool) :
    Option (Matrix (Fin 3) (Fin 3) ℝ) :=
  match unitVec axis with
  | none => none
  | some z =>
    let t := angleOf deg angle
    let z1 := if z ⬝ᵥ ![1, 0, 0] < 9 / 10 then z ⨯₃ ![1, 0, 0] else z ⨯₃ ![0, 1, 0]
    let z2 := z ⨯₃ z1
    match unitVec z1, unitVec z2 with
    | some z1, some z2 =>
      some (Real.cos t • (outer z1 z1 + outer z2 z2) + Real.sin t • (outer z2 z1 - outer z1 z2)
        + outer z z)
    | _, _ => none

/-- `utils.py` lines 52-56: the elementary rotations. -/
noncomputable def canonicalRotation (c : Char) (x : ℝ) : Matrix (Fin 3) (Fin 3) ℝ :=
  if c = 'X' then !![1, 0, 0; 0, Real.cos x, -Real.sin x; 0, Real.sin x, Real.cos x]
  else if c = 'Y' then !![Real.cos x, 0, Real.sin x; 0, 1, 0; -Real.sin x, 0, Real.cos x]
  else !![Real.cos x, -Real.sin x, 0; Real.sin x, Real.cos x, 0; 0, 0, 1]

/-- `utils.py` lines 58-64: the loop over the letters of `order`; the two lists are zipped by the index
`i` of line 58. -/
noncomputable def eulerLoop (deg : Bool) : List Char → List ℝ → Matrix (Fin 3) (Fin 3) ℝ →
    Except Err (Matrix (Fin 3) (Fin 3) ℝ)
  | a :: as, x :: xs, R =>
    if a ∉ ['X', 'Y', 'Z', 'x', 'y', 'z'] then .error .valueError
    else eulerLoop deg as xs (canonicalRotation a.toUpper (angleOf deg x) * R)
  | _, _, R => .ok R

/-- `utils.py` lines 46-64, `Euler`. -/
noncomputable def euler (angles : List ℝ) (order : List Char) (deg : Bool) :
    Except Err (Matrix (Fin 3) (Fin 3) ℝ) :=
  if angles.length ≠ 3 ∨ order.length ≠ 3 then .error .valueError
  else eulerLoop deg order angles 1

/-- `spacegroup.py` lines 11-24, `skew`, for integers `n`, `p`.  `2*np.pi/n` raises for `n = 0`; the
quotient `p/n` of line 23 is floored under Python 2. -/
noncomputable def skew (py : Py) (n p : ℤ) (T : Fin 3 → ℝ) :
    Except Err (Option (Matrix (Fin 3) (Fin 3) ℝ) × (Fin 3 → ℝ)) :=
  if n = 0 then .error .zeroDivisionError
  else
    let θ := 2 * Real.pi / n
    let p' := if n < p then p % n else p
    let Q := match unitVec T with
      | none => none
      | some t => rotation θ t false
    let q : ℝ := match py with
      | .py2 => ((p' / n : ℤ) : ℝ)
      | .py3 => (p' : ℝ) / n
    .ok (Q, q • T)

end Verif.Model
