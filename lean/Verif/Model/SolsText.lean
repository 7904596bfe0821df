import Verif.Model.Format
import Verif.Model.LatCor

/-!
# Model of `_sols_tostr`

* `structrans/marttrans/lat_cor/main_direct.py` lines 285-335,
* `structrans/marttrans/lat_cor/main_hnf.py` lines 325-386.

The two functions differ only in the lines about the Hermite normal form.  Python strings are lists of
characters.
-/

namespace Verif.Model

/-- One number and a space for each element of a row: `main_direct.py` lines 297-298 and 311-312,
`main_hnf.py` lines 361-362. -/
def cellsText {α : Type} (f : α → List Char) (row : List α) : List Char := row.flatMap fun x => f x ++ [' ']

/-- `main_direct.py` lines 296-303 for one `j`: a column of the correspondence and the vector it becomes. -/
noncomputable def corLine {N : ℕ} (cor : Matrix (Fin N) (Fin N) ℝ) (j : Fin N) : List Char :=
  ("    [".toList ++ cellsText (fun x => padLeft 5 (fmtF 2 x)) (List.ofFn fun k => cor k j)).dropLast ++
    "] ==> [ ".toList ++ cellsText fmtD (List.ofFn fun k => (1 : Matrix (Fin N) (Fin N) ℕ) j k) ++
    "]".toList ++ ['\n']

/-- `main_direct.py` lines 307-314 for one `j` (`main_hnf.py` lines 356-364): a row of a matrix, with the name
in front of the first row. -/
def rowLine {N : ℕ} {α : Type} (name : List Char) (f : α → List Char) (A : Matrix (Fin N) (Fin N) α) (j : Fin N) :
    List Char :=
  ((if j.val = 0 then name else "       [".toList) ++ cellsText f (List.ofFn fun k => A j k)).dropLast ++
    "]".toList ++ ['\n']

/-- `main_direct.py` lines 319-323: the principal stretches.  Simplification: `lams[j]` is 0 if `lams` has no
element with this index, instead of an `IndexError`; the list has `dim` elements. -/
noncomputable def lamsLine (N : ℕ) (lams : List ℝ) : List Char :=
  ("    ".toList ++ (List.range N).flatMap fun j =>
    "lambda_".toList ++ fmtD (j + 1) ++ " = ".toList ++ fmtG (lams.getD j 0) ++ ", ".toList).dropLast.dropLast ++
    ".".toList ++ ['\n']

/-- The body of the loop, `main_direct.py` lines 289-334 and `main_hnf.py` lines 329-385; `h` is the Hermite
normal form in `main_hnf.py`. -/
noncomputable def solText (dist : String) (nsol : ℕ) {N : ℕ} (i : ℕ) (r : Report N)
    (h : Option (Matrix (Fin N) (Fin N) ℤ)) : List Char :=
  "Solution ".toList ++ fmtD (i + 1) ++ " out of ".toList ++ fmtD nsol ++ ":".toList ++ ['\n'] ++
  "----------------------".toList ++ ['\n'] ++
  " - Lattice correspondence:".toList ++ ['\n'] ++
  (List.ofFn (corLine r.cor)).flatten ++
  " - Transformation stretch matrix:".toList ++ ['\n'] ++
  (List.ofFn (rowLine "   U = [".toList (fun x => padLeft 9 (fmtF 6 x)) r.u)).flatten ++
  (match h with
    | none => []
    | some h => " - Hermite normal form:".toList ++ ['\n'] ++
      (List.ofFn (rowLine "   H = [".toList (fun x : ℤ => padLeft 4 (fmtG x)) h)).flatten) ++
  " - Sorted eigen strains:".toList ++ ['\n'] ++
  lamsLine N r.lams ++
  (distLabel dist).toList ++ ['\n'] ++
  "    dist = ".toList ++ fmtG r.d ++ ['\n'] ++
  " ".toList ++ ['\n']

/-- The loop over the solutions from number `i` on: `main_direct.py` lines 288-334. -/
noncomputable def solsTextFrom (dist : String) (nsol : ℕ) {N : ℕ} :
    ℕ → List (Report N × Option (Matrix (Fin N) (Fin N) ℤ)) → List Char
  | _, [] => []
  | i, s :: rest => solText dist nsol i s.1 s.2 ++ solsTextFrom dist nsol (i + 1) rest

/-- `_sols_tostr`, `main_direct.py` lines 285-335 and `main_hnf.py` lines 325-386. -/
noncomputable def solsText (dist : String) (nsol : ℕ) {N : ℕ}
    (sols : List (Report N × Option (Matrix (Fin N) (Fin N) ℤ))) : List Char :=
  solsTextFrom dist nsol 0 sols

end Verif.Model
