import Mathlib.Data.Real.Basic
import Mathlib.Data.Matrix.Basic
import Verif.Model.Basic

/-!
# Model of `vertex` and `bonds` (`structrans/crystallography/visualization.py`)

The origin and the cell are arrays of numbers (for two plain lists `o+E[0]` would concatenate; not
modelled).  `E[i]` is the `i`-th row of the array.
-/

namespace Verif.Model

/-- `visualization.py` lines 8-28, `vertex`.  `none` is the `None` returned (after a message) for
arrays of a wrong shape. -/
def vertex {k r c : ℕ} (o : Fin k → ℝ) (E : Matrix (Fin r) (Fin c) ℝ) (n : ℤ) :
    Except Err (Option (List (Fin k → ℝ))) :=
  if n = 3 then
    if h : r = 3 ∧ c = 3 ∧ k = 3 then
      let e : Fin 3 → Fin k → ℝ := fun i j =>
        E (Fin.cast h.1.symm i) (Fin.cast (h.2.2.trans h.2.1.symm) j)
      .ok (some [o, o + e 0, o + e 1, o + e 2, o + e 0 + e 1, o + e 1 + e 2, o + e 0 + e 2,
        o + e 0 + e 1 + e 2])
    else .ok none
  else if n = 2 then
    if h : r = 2 ∧ c = 2 ∧ k = 2 then
      let e : Fin 2 → Fin k → ℝ := fun i j =>
        E (Fin.cast h.1.symm i) (Fin.cast (h.2.2.trans h.2.1.symm) j)
      .ok (some [o, o + e 0, o + e 1, o + e 0 + e 1])
    else .ok none
  else .error .visualError

/-- `visualization.py` lines 38-40: the pairs of indices of the edges. -/
def bondIdx : List (ℕ × ℕ) :=
  List.zip [0, 0, 0, 1, 1, 4, 4, 7, 7, 6, 3, 5] [1, 2, 3, 4, 6, 2, 7, 6, 5, 3, 5, 2]

/-- `visualization.py` lines 30-48, `bonds`.  In two dimensions line 46 iterates over the integer
`len(idx)`, which raises `TypeError`. -/
def bonds {w : ℕ} (verts : List (Fin w → ℝ)) : Except Err (List ((Fin w → ℝ) × (Fin w → ℝ))) :=
  if verts = [] then .error .indexError
  else if w = 3 then
    bondIdx.mapM fun i => match verts[i.1]?, verts[i.2]? with
      | some a, some b => .ok (a, b)
      | _, _ => .error .indexError
  else if w = 2 then .error .typeError
  else .error .visualError

end Verif.Model
