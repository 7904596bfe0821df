import Mathlib.LinearAlgebra.Matrix.NonsingularInverse
import Mathlib.Algebra.Order.Round
import Mathlib.Data.Rat.Floor
import Verif.Model.Util

/-!
# Model of `structrans/crystallography/hnf.py`

`structrans/crystallography/sublattice.py` is a textual copy of that file.  Integer numpy arrays are
modelled as `Matrix (Fin m) (Fin n) ℤ` (no overflow).
-/

namespace Verif.Model

open Matrix

/-- `hnf.py` lines 22-25: the new matrix made by `set_ij` from `H`. -/
def setEntry {n : ℕ} (H : Matrix (Fin n) (Fin n) ℤ) (i j : Fin n) (v : ℤ) :
    Matrix (Fin n) (Fin n) ℤ :=
  fun a b => if a = i ∧ b = j then v else H a b

/-- `hnf.py` lines 19-27, `set_ij`: extend the list by a modified copy of every `H` whose `(i,j)`
entry is still zero. -/
def setIj {n : ℕ} (hnfs : List (Matrix (Fin n) (Fin n) ℤ)) (modif : Fin n × Fin n × ℤ) :
    List (Matrix (Fin n) (Fin n) ℤ) :=
  hnfs ++ (hnfs.filter (fun H => H modif.1 modif.2.1 == 0)).map
    (fun H => setEntry H modif.1 modif.2.1 modif.2.2)

/-- `hnf.py` line 29, the generator `modifs`. -/
def modifs {n : ℕ} (diag : Fin n → ℤ) : List (Fin n × Fin n × ℤ) :=
  (List.finRange n).flatMap fun i =>
    ((List.finRange n).filter (fun j => decide (j < i))).flatMap fun j =>
      (List.range (diag i - 1).toNat).map fun (d : ℕ) => (i, j, -((d : ℤ) + 1))

/-- `hnf.py` lines 10-31, `hnf_from_diag`. -/
def hnfFromDiag {n : ℕ} (diag : Fin n → ℤ) : List (Matrix (Fin n) (Fin n) ℤ) :=
  (modifs diag).foldl setIj [Matrix.diagonal diag]

/-- `itertools.product(l, repeat=N)` (used in `hnf.py` line 44), rightmost index fastest. -/
def itProd {α : Type} (l : List α) : (N : ℕ) → List (Fin N → α)
  | 0 => [Fin.elim0]
  | N + 1 => l.flatMap fun a => (itProd l N).map fun d => Fin.cons a d

/-- `reduce(mul, d)` (`hnf.py` line 44): raises `TypeError` on an empty sequence. -/
def reduceMul : List ℤ → Except Err ℤ
  | [] => .error .typeError
  | x :: xs => .ok (xs.foldl (· * ·) x)

/-- `hnf.py` line 44, the generator `diags`, consumed by the loop of lines 46-50. -/
def selectDiags {N : ℕ} (n : ℤ) : List (Fin N → ℤ) → Except Err (List (Fin N → ℤ))
  | [] => .ok []
  | d :: ds =>
    match reduceMul (List.ofFn d) with
    | .error e => .error e
    | .ok p =>
      match selectDiags n ds with
      | .error e => .error e
      | .ok r => .ok (if p = n then d :: r else r)

/-- `hnf.py` lines 33-51, `hnf_from_det`.  The Python value `None` (returned when there is no
suitable diagonal) is represented by the empty list. -/
def hnfFromDet (n : ℤ) (N : ℕ) : Except Err (List (Matrix (Fin N) (Fin N) ℤ)) :=
  if n < 0 then .error .valueError
  else
    match selectDiags n (itProd (divisors n) N) with
    | .error e => .error e
    | .ok ds => .ok (ds.flatMap hnfFromDiag)

/-- `hnf.py` lines 54-59, `__swap_cols`. -/
def swapCols {m n : ℕ} (M : Matrix (Fin m) (Fin n) ℤ) (a b : Fin n) : Matrix (Fin m) (Fin n) ℤ :=
  fun i j => if j = b then M i a else if j = a then M i b else M i j

/-- `hnf.py` lines 61-66, `__add_col`. -/
def addCol {m n : ℕ} (M : Matrix (Fin m) (Fin n) ℤ) (c1 c2 : Fin n) (t : ℤ) :
    Matrix (Fin m) (Fin n) ℤ :=
  fun i j => if j = c1 then M i j + t * M i c2 else M i j

/-- `hnf.py` lines 68-74, `__nonneg_row`. -/
def nonnegRow {m n : ℕ} (M : Matrix (Fin m) (Fin n) ℤ) (r : Fin m) : Matrix (Fin m) (Fin n) ℤ :=
  fun i j => if M r j < 0 then -M i j else M i j

/-- `hnf.py` lines 82-85, the `while` loop of `__gcd_cols`.  `fuel` bounds the number of iterations;
`gcdCols` supplies `|M[0,c2]|`, and `Lemmas/Hnf.lean: gcdLoop_zero` proves that the loop has then
always ended by its own exit test.  `math.floor(a/b)` is `Int.fdiv` under both interpreters. -/
def gcdLoop {m n : ℕ} (c1 c2 : Fin n) : ℕ → Matrix (Fin (m + 1)) (Fin n) ℤ →
    Matrix (Fin (m + 1)) (Fin n) ℤ
  | 0, M => M
  | fuel + 1, M =>
    if M 0 c2 = 0 then M
    else gcdLoop c1 c2 fuel (swapCols (addCol M c1 c2 (-(Int.fdiv (M 0 c1) (M 0 c2)))) c1 c2)

/-- `hnf.py` lines 76-87, `__gcd_cols`. -/
def gcdCols {m n : ℕ} (M : Matrix (Fin (m + 1)) (Fin n) ℤ) (c1 c2 : Fin n) :
    Matrix (Fin (m + 1)) (Fin n) ℤ :=
  let M := if M 0 c1 < M 0 c2 then swapCols M c1 c2 else M
  gcdLoop c1 c2 (M 0 c2).natAbs M

/-- `int(math.ceil(a/b))` (`hnf.py` line 115).  Python 3: ceiling of the exact quotient (the quotient
is treated as exact; a zero divisor gives `inf`/`nan`, on which `math.ceil` raises).  Python 2:
the quotient is already floored, and numpy returns 0 for a zero divisor. -/
def ceilDiv (py : Py) (a b : ℤ) : Except Err ℤ :=
  match py with
  | .py2 => .ok (if b = 0 then 0 else Int.fdiv a b)
  | .py3 =>
    if b = 0 then (if a = 0 then .error .valueError else .error .overflowError)
    else .ok (-(Int.fdiv (-a) b))

/-- `int(math.floor(a/b))` (`hnf.py` line 117); see `ceilDiv` for zero divisors. -/
def floorDiv (py : Py) (a b : ℤ) : Except Err ℤ :=
  match py with
  | .py2 => .ok (if b = 0 then 0 else Int.fdiv a b)
  | .py3 =>
    if b = 0 then (if a = 0 then .error .valueError else .error .overflowError)
    else .ok (Int.fdiv a b)

/-- `hnf.py` lines 114-117, the body of the last loop of `hnfd` at row `i`. -/
def reduceRow {n : ℕ} (py : Py) (H : Matrix (Fin (n + 1)) (Fin (n + 1)) ℤ) (i : Fin (n + 1)) :
    Except Err (Matrix (Fin (n + 1)) (Fin (n + 1)) ℤ) :=
  match (if 0 < H i 0 then
      (match ceilDiv py (H i 0) (H i i) with
       | .error e => .error e
       | .ok t => .ok (addCol H 0 i (-t)))
    else .ok H : Except Err (Matrix (Fin (n + 1)) (Fin (n + 1)) ℤ)) with
  | .error e => .error e
  | .ok H =>
    if H i 0 ≤ -H i i then
      match floorDiv py (-H i 0) (H i i) with
      | .error e => .error e
      | .ok t => .ok (addCol H 0 i t)
    else .ok H

/-- `hnf.py` lines 113-117, the loop over the given rows. -/
def reduceRows {n : ℕ} (py : Py) : List (Fin (n + 1)) →
    Matrix (Fin (n + 1)) (Fin (n + 1)) ℤ → Except Err (Matrix (Fin (n + 1)) (Fin (n + 1)) ℤ)
  | [], H => .ok H
  | i :: is, H =>
    match reduceRow py H i with
    | .error e => .error e
    | .ok H => reduceRows py is H

/-- `hnf.py` lines 107-108: for `i = 0, 1, ..., N-2` combine columns `-i-2` and `-i-1`.  Python's
index `-k` of an axis of length `N` is `N - k`, i.e. `Fin.rev` of `k - 1`. -/
def gcdRow {n : ℕ} (H : Matrix (Fin (n + 2)) (Fin (n + 2)) ℤ) :
    Matrix (Fin (n + 2)) (Fin (n + 2)) ℤ :=
  (List.finRange (n + 1)).foldl (fun H i => gcdCols H (Fin.rev i.succ) (Fin.rev i.castSucc)) H

/-- `hnf.py` line 111: `H[1:, 1:] = Hsub[:]`. -/
def setSub {n : ℕ} (H : Matrix (Fin (n + 1)) (Fin (n + 1)) ℤ) (S : Matrix (Fin n) (Fin n) ℤ) :
    Matrix (Fin (n + 1)) (Fin (n + 1)) ℤ :=
  fun i j => Fin.cases (H 0 j) (fun i' => Fin.cases (H i'.succ 0) (fun j' => S i' j') j) i

/-- `hnf.py` lines 89-119, `hnfd(M, onlyH=True)`, for an `(n+1) x (n+1)` matrix. -/
def hnfdH (py : Py) : (n : ℕ) → Matrix (Fin (n + 1)) (Fin (n + 1)) ℤ →
    Except Err (Matrix (Fin (n + 1)) (Fin (n + 1)) ℤ)
  | 0, M => .ok (if 0 < M 0 0 then M else -M)
  | n + 1, M =>
    let H := gcdRow (nonnegRow M 0)
    match hnfdH py n (H.submatrix Fin.succ Fin.succ) with
    | .error e => .error e
    | .ok S => reduceRows py ((List.finRange (n + 1)).map Fin.succ) (setSub H S)

/-- `np.rint`: round to nearest, ties to even.  `hnf.py` line 121. -/
def rint (x : ℚ) : ℤ :=
  if Int.fract x = 1 / 2 then (if ⌊x⌋ % 2 = 0 then ⌊x⌋ else ⌊x⌋ + 1) else round x

/-- `hnf.py` lines 89-121, `hnfd(M)` (with `onlyH=False`): lines 100-103 for `1 x 1`, otherwise line
121, where `la.inv` raises `LinAlgError` on a singular matrix. -/
noncomputable def hnfd (py : Py) : (n : ℕ) → Matrix (Fin (n + 1)) (Fin (n + 1)) ℤ →
    Except Err (Matrix (Fin (n + 1)) (Fin (n + 1)) ℤ × Matrix (Fin (n + 1)) (Fin (n + 1)) ℤ)
  | 0, M => if 0 < M 0 0 then .ok (M, 1) else .ok (-M, -1)
  | n + 1, M =>
    match hnfdH py (n + 1) M with
    | .error e => .error e
    | .ok H =>
      if H.det = 0 then .error .linAlgError
      else .ok (H, ((H.map (Int.cast : ℤ → ℚ))⁻¹ * M.map (Int.cast : ℤ → ℚ)).map rint)

end Verif.Model
