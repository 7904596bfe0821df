import Mathlib.Data.Matrix.Basic
import Mathlib.LinearAlgebra.Matrix.Determinant.Basic
import Verif.Model.Basic

/-!
# Model of the batched matrix helpers (`structrans/mat_math.py`) and of the cofactor functions

A batch of `N` matrices of dimension `d` is an array of shape `N × d²`: a list of rows, a row being a
function of the column, of which only the columns below `d²` are meaningful.  The entries range over
any commutative ring `R` (integers or exact reals).  Simplifications: the width is a perfect square, so
`int(sqrt(len(l[0])))` is `d`; both arguments of `mat_dot` have the same type and number of rows; integer
overflow is not modelled.

The module does not define `xrange` (it does not import `general_imports`), so under Python 3 every
use of it raises `NameError`.
-/

namespace Verif.Model

variable {R : Type*} [CommRing R]

/-- A row of a batch.  `mat_math.py` lines 14-73: a batch is an array with one row for each matrix. -/
abbrev Row (R : Type*) := ℕ → R

/-- `mat_math.py` lines 20-26, for one row: the triple loop over `i`, `j`, `k`. -/
def matDotRow (d : ℕ) (a b : Row R) : Row R :=
  (List.range d).foldl (fun c i =>
    (List.range d).foldl (fun c j =>
      (List.range d).foldl (fun c k =>
        Function.update c (i * d + j) (c (i * d + j) + a (i * d + k) * b (k * d + j))) c) c)
    (fun _ => 0)

/-- `mat_math.py` lines 14-28, `mat_dot`.  `la[0]` raises for an empty batch. -/
def matDot (py : Py) (d : ℕ) (la lb : List (Row R)) : Except Err (List (Row R)) :=
  if la = [] then .error .indexError
  else match py with
    | .py3 => .error .nameError
    | .py2 => .ok (List.zipWith (matDotRow d) la lb)

/-- `mat_math.py` lines 31-39, `mat_trace`; `g` is the content of the array allocated by `np.empty`. -/
def matTrace (py : Py) (d : ℕ) (g : ℕ → R) (l : List (Row R)) : Except Err (List R) :=
  if l = [] then .error .indexError
  else match py with
    | .py3 => .error .nameError
    | .py2 => .ok (l.mapIdx fun r row =>
        (List.range d).foldl (fun t i => t + row (i * d + i)) (g r))

/-- `mat_math.py` lines 55-58: the columns of the minor that drops row 0 and column `n`. -/
def minorIdx (d n : ℕ) : List ℕ :=
  let rm := List.range d ++ ((List.range d).drop 1).map fun i => i * d + n
  (List.range (d ^ 2)).filter fun i => decide (i ∉ rm)

/-- `mat_math.py` lines 41-63, for one row (lines 59-61 act on every row alike).  The columns
`l[:, mn_idx]` of the minor are again a row, of dimension `d - 1`. -/
def matDetRow : ℕ → Row R → R
  | 0, _ => 0
  | 1, row => row 0
  | d + 2, row =>
    (List.range (d + 2)).foldl (fun det n =>
      det + (-1) ^ n * row n * matDetRow (d + 1) fun k => row ((minorIdx (d + 2) n).getD k 0)) 0

/-- `mat_math.py` lines 41-63, `mat_det`.  An empty batch has its `IndexError` swallowed (lines 42-45)
and is returned flattened; so is a batch of 1x1 matrices.  In every other case the loop of line 51 needs
`xrange`. -/
def matDet (py : Py) (d : ℕ) (l : List (Row R)) : Except Err (List R) :=
  if l = [] then .ok []
  else if d = 1 then .ok (l.map fun row => row 0)
  else match py with
    | .py3 => .error .nameError
    | .py2 => .ok (l.map (matDetRow d))

/-- `mat_math.py` lines 69-72, for one row; `g` is the content of the array allocated by
`np.empty_like`. -/
def matTRow (d : ℕ) (g row : Row R) : Row R :=
  (List.range d).foldl (fun t i =>
    (List.range d).foldl (fun t j => Function.update t (i * d + j) (row (j * d + i))) t) g

/-- `mat_math.py` lines 65-73, `mat_T`. -/
def matT (py : Py) (d : ℕ) (g : ℕ → Row R) (l : List (Row R)) : Except Err (List (Row R)) :=
  if l = [] then .error .indexError
  else match py with
    | .py3 => .error .nameError
    | .py2 => .ok (l.mapIdx fun r row => matTRow d (g r) row)

/-- `np.delete(np.delete(A, i, axis=0), j, axis=1)`.  `mat_math.py` lines 108-109, `twin.py` lines 501-502. -/
def deleted {n : ℕ} (A : Matrix (Fin (n + 1)) (Fin (n + 1)) R) (i j : Fin (n + 1)) :
    Matrix (Fin n) (Fin n) R :=
  A.submatrix i.succAbove j.succAbove

/-- The array of signed minors, `mat_math.py` lines 106-110 and `twin.py` lines 499-503; it is reshaped
to 3x3, row after row. -/
def signedMinors (A : Matrix (Fin 3) (Fin 3) R) : Matrix (Fin 3) (Fin 3) R := fun i j =>
  (-1) ^ ((i : ℕ) + (j : ℕ)) * (deleted A i j).det

/-- `twin.py` lines 494-506, `_brute_cof`: non-square arrays raise `TypeError`, square arrays of another
size than 3 cannot be reshaped. -/
def bruteCof {m n : ℕ} (A : Matrix (Fin m) (Fin n) R) : Except Err (Matrix (Fin 3) (Fin 3) R) :=
  if m ≠ n then .error .typeError
  else if h : m = 3 ∧ n = 3 then
    .ok (signedMinors (A.submatrix (Fin.cast h.1.symm) (Fin.cast h.2.symm)))
  else .error .valueError

/-- `mat_math.py` lines 102-114, `cofactor`: returns `None` for non-square arrays. -/
def cofactor (py : Py) {m n : ℕ} (A : Matrix (Fin m) (Fin n) R) :
    Except Err (Option (Matrix (Fin 3) (Fin 3) R)) :=
  if m ≠ n then .ok none
  else match py with
    | .py3 => .error .nameError
    | .py2 =>
      if h : m = 3 ∧ n = 3 then
        .ok (some (signedMinors (A.submatrix (Fin.cast h.1.symm) (Fin.cast h.2.symm))))
      else .error .valueError

end Verif.Model
