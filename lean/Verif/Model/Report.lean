import Mathlib.LinearAlgebra.Matrix.NonsingularInverse
import Mathlib.Analysis.SpecialFunctions.Pow.Real
import Mathlib.Data.List.Sort
import Verif.Model.Dist
import Verif.Model.SolList
import Verif.Model.MainHnf

/-!
# Model of the last step of the two `lat_cor` functions

* `structrans/marttrans/lat_cor/main_direct.py` lines 229-248,
* `structrans/marttrans/lat_cor/main_hnf.py` lines 277-289.

Here the solution dictionaries get their entries `cor`, `u` and `lams`.
-/

namespace Verif.Model

open Matrix

variable {N : ℕ}

/-- The entries of a solution dictionary that are filled in at the end; `l` is the correspondence itself (in
`main_hnf.py` the product of the entries `h` and `l`).  `main_direct.py` lines 231-248, `main_hnf.py` lines
278-289. -/
structure Report (N : ℕ) where
  l : Matrix (Fin N) (Fin N) ℤ
  d : ℝ
  cor : Matrix (Fin N) (Fin N) ℝ
  u : Matrix (Fin N) (Fin N) ℝ
  lams : List ℝ

/-- `main_direct.py` lines 231-236: the first equivalent correspondence of positive determinant in the
iteration order of the set, if there is one. -/
def chooseRep (L : Matrix (Fin N) (Fin N) ℤ) : List (Matrix (Fin N) (Fin N) ℤ) →
    Matrix (Fin N) (Fin N) ℤ
  | [] => L
  | X :: rest => if 0 < X.det then X else chooseRep L rest

/-- `main_direct.py` lines 238-248 (`main_hnf.py` lines 279-289).  `eigsys` is `la.eig`; its contract is
stated where it is used.  `np.sqrt` of a negative number would be NaN; it is 0 here, which does not
matter because the eigenvalues of `F.T F` are positive. -/
noncomputable def report (eigsys : Matrix (Fin N) (Fin N) ℝ → (Fin N → ℝ) × Matrix (Fin N) (Fin N) ℝ)
    (EA EM CA CM : Matrix (Fin N) (Fin N) ℝ) (s : Sol (Matrix (Fin N) (Fin N) ℤ) ℝ) :
    Except Err (Report N) :=
  open Classical in
  if CA.det = 0 then .error .linAlgError
  else
    let cor := CA⁻¹ * intMat ℝ s.l * CM
    if (EA * intMat ℝ s.l).det = 0 then .error .linAlgError
    else
      let F := EM * (EA * intMat ℝ s.l)⁻¹
      let C := Fᵀ * F
      let lams := fun i => Real.sqrt ((eigsys C).1 i)
      let V := (eigsys C).2
      if V.det = 0 then .error .linAlgError
      else .ok ⟨s.l, s.d, cor, V * Matrix.diagonal lams * V⁻¹, (List.ofFn lams).mergeSort⟩

/-- `main_direct.py` lines 229-248: the loop over the solutions.  `order L` is the set `eqlatcor(L)` in
its iteration order. -/
noncomputable def finishDirect
    (eigsys : Matrix (Fin N) (Fin N) ℝ → (Fin N → ℝ) × Matrix (Fin N) (Fin N) ℝ)
    (order : Matrix (Fin N) (Fin N) ℤ → List (Matrix (Fin N) (Fin N) ℤ))
    (EA EM CA CM : Matrix (Fin N) (Fin N) ℝ) (sols : List (Sol (Matrix (Fin N) (Fin N) ℤ) ℝ)) :
    Except Err (List (Report N)) :=
  mapExcept (fun s => report eigsys EA EM CA CM ⟨chooseRep s.l (order s.l), s.d⟩) sols

/-- `main_hnf.py` lines 277-289: the loop over the solutions, with `chi = np.eye(dim)` (line 114); the
entries `h` and `l` of a solution are given separately. -/
noncomputable def finishHnf
    (eigsys : Matrix (Fin N) (Fin N) ℝ → (Fin N → ℝ) × Matrix (Fin N) (Fin N) ℝ)
    (EA EM CA CM : Matrix (Fin N) (Fin N) ℝ)
    (sols : List (Matrix (Fin N) (Fin N) ℤ × Matrix (Fin N) (Fin N) ℤ × ℝ)) :
    Except Err (List (Report N)) :=
  mapExcept (fun s => report eigsys EA EM CA CM ⟨s.1 * (s.2.1 * 1), s.2.2⟩) sols

end Verif.Model
