import Mathlib.LinearAlgebra.Matrix.Determinant.Basic
import Mathlib.Order.Interval.Finset.Fin
import Mathlib.Data.Fintype.BigOperators
import Verif.Model.Lattice

/-!
# Model of `structrans/crystallography/lattice_reduction.py`

Arrays are square arrays of floating point numbers (for an integer array line 14 raises a casting
error; not modelled), taken as exact reals and given by their columns: `C j` is `E[:, j]`.  A division
by a vanishing `B[j]` gives NaN in the code and 0 in `gsVec`; `gramSchmidt` returns `none` in that case,
and the other definitions are used for independent columns only, where it does not occur.
-/

namespace Verif.Model

open Matrix

/-- The columns of an array.  `lattice_reduction.py` lines 5-73: `E[:, i]` is the `i`-th column. -/
abbrev Cols (n : ℕ) := Fin n → Fin n → ℝ

/-- `lattice_reduction.py` lines 10-16: column `i` of `Eo`.  The successive subtractions of line 14 use
`E[:, i]` and not the partly reduced vector, so they add up to one sum. -/
noncomputable def gsVec {n : ℕ} (C : Cols n) (i : Fin n) : Fin n → ℝ :=
  C i - ∑ j : {j : Fin n // j < i},
    (C i ⬝ᵥ gsVec C j.1 / (gsVec C j.1 ⬝ᵥ gsVec C j.1)) • gsVec C j.1
termination_by i
decreasing_by all_goals exact j.2

/-- `lattice_reduction.py` lines 8 and 13: the array `M`. -/
noncomputable def gsCoef {n : ℕ} (C : Cols n) (i j : Fin n) : ℝ :=
  if j < i then C i ⬝ᵥ gsVec C j / (gsVec C j ⬝ᵥ gsVec C j) else if i = j then 1 else 0

open Classical in
/-- `lattice_reduction.py` lines 5-17, `Gram_Schmidt`; `none` stands for a result containing NaNs. -/
noncomputable def gramSchmidt {n : ℕ} (E : Matrix (Fin n) (Fin n) ℝ) :
    Option (Matrix (Fin n) (Fin n) ℝ × Matrix (Fin n) (Fin n) ℝ) :=
  if ∃ j k : Fin n, j < k ∧ gsVec Eᵀ j ⬝ᵥ gsVec Eᵀ j = 0 then none
  else some (Matrix.of fun i j => gsVec Eᵀ j i, Matrix.of (gsCoef Eᵀ))

/-- `lattice_reduction.py` lines 24-27: the column operations, given the rounded coefficients. -/
def gaussOps {V : Type*} [AddCommGroup V] {n : ℕ} (m : Fin n → Fin n → ℤ) (C : Fin n → V) : Fin n → V :=
  (List.finRange n).foldl (fun B i =>
    ((List.finRange n).filter (· < i)).foldl (fun B j => Function.update B i (B i - m i j • B j)) B) C

/-- `lattice_reduction.py` lines 20-28, `Gauss_reduction`.  The coefficients are computed once, before
any column is changed. -/
noncomputable def gaussReduction {n : ℕ} (C : Cols n) : Cols n :=
  gaussOps (fun i j => roundEven (gsCoef C i j)) C

/-- `lattice_reduction.py` lines 31-38, `projection`. -/
noncomputable def projection {n : ℕ} (i : Fin n) (x : Fin n → ℝ) (C : Cols n) : Fin n → ℝ :=
  ∑ j ∈ Finset.Ici i, (x ⬝ᵥ gsVec C j / (gsVec C j ⬝ᵥ gsVec C j)) • gsVec C j

open Classical in
/-- `lattice_reduction.py` lines 43-47: the condition to swap the columns `i` and `i + 1`. -/
noncomputable def needsSwap {n : ℕ} (C : Cols n) (i : Fin n) : Bool :=
  if h : (i : ℕ) + 1 < n then
    decide (4 / 3 * (projection i (C ⟨i + 1, h⟩) C ⬝ᵥ projection i (C ⟨i + 1, h⟩) C) <
      projection i (C i) C ⬝ᵥ projection i (C i) C)
  else false

/-- `lattice_reduction.py` lines 41-49, `swapping`: the first index to swap, if any. -/
noncomputable def swapping {n : ℕ} (C : Cols n) : Option (Fin n) :=
  (List.finRange n).find? (needsSwap C)

/-- `lattice_reduction.py` lines 62-64. -/
def swapNext {V : Type*} {n : ℕ} (C : Fin n → V) (i : Fin n) : Fin n → V :=
  if h : (i : ℕ) + 1 < n then C ∘ Equiv.swap i ⟨i + 1, h⟩ else C

/-- `lattice_reduction.py` lines 58-65: the loop; the first argument is `1000 - Niter`.  Returns `B`,
`Niter` and `swap`. -/
noncomputable def lllLoop {n : ℕ} : ℕ → Cols n → ℕ → Cols n × ℕ × Bool
  | 0, B, k => (B, k, true)
  | f + 1, B, k =>
    let B := gaussReduction B
    match swapping B with
    | none => (B, k + 1, false)
    | some i => lllLoop f (swapNext B i) (k + 1)

/-- What `LLL` returns: an array, or the pair of line 68. -/
inductive LLLResult (n : ℕ)
  | base (B : Matrix (Fin n) (Fin n) ℝ)
  | pair (B : Matrix (Fin n) (Fin n) ℝ) (b : Bool)

open Classical in
/-- `lattice_reduction.py` lines 52-73, `LLL`, for a non-singular array.  The signs of lines 70-71 are
those of non-zero determinants. -/
noncomputable def lll {n : ℕ} (E : Matrix (Fin n) (Fin n) ℝ) : LLLResult n :=
  let r := lllLoop 1000 Eᵀ 0
  let B : Matrix (Fin n) (Fin n) ℝ := (Matrix.of r.1)ᵀ
  if r.2.1 = 100 then .pair B false
  else if (0 < B.det ↔ 0 < E.det) then .base B
  else .base (Matrix.of fun i j => if (j : ℕ) = 0 then -B i j else B i j)

end Verif.Model
