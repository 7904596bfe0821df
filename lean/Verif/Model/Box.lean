import Mathlib.Data.Real.Sqrt
import Mathlib.LinearAlgebra.Matrix.Notation
import Mathlib.Data.Matrix.Mul
import Verif.Model.Stereo
import Verif.Model.Bravais

/-!
# Model of `box`, the constructor of `UnitCell` (`structrans/crystallography/visualization.py`) and `pole_figure`
(`structrans/crystallography/stereogram.py`)
-/

namespace Verif.Model

open Matrix

/-- What `box` returns: `None`, the array `[0, 0, 0]`, or the array of the points inside.  `visualization.py`
lines 68 and 79-82. -/
inductive BoxRes (w : ℕ)
  | nothing
  | zeros
  | pts (l : List (Fin w → ℝ))

/-- `norm(E[:,i])`.  `visualization.py` lines 60-63 and 71. -/
noncomputable def colNorm {r c : ℕ} (E : Matrix (Fin r) (Fin c) ℝ) (i : Fin c) : ℝ := Real.sqrt (∑ k, E k i * E k i)

/-- `visualization.py` lines 60-62: `v.dot(E[:,i]/norm(E[:,i]))`.  A zero column gives NaN, for which the test of line
63 is false; here it gives `0 < 0`. -/
noncomputable def colProj (E : Matrix (Fin 3) (Fin 3) ℝ) (v : Fin 3 → ℝ) (i : Fin 3) : ℝ :=
  ∑ k, v k * (E k i / colNorm E i)

open Classical in
/-- Lines 60-65: the test in three dimensions. -/
noncomputable def inBox3 (E : Matrix (Fin 3) (Fin 3) ℝ) (v : Fin 3 → ℝ) : Bool :=
  if colProj E v 0 < 1.05 * colNorm E 0 ∧ colProj E v 1 < 1.05 * colNorm E 1 ∧ colProj E v 2 < 1.05 * colNorm E 2 then
    decide (0 ≤ colProj E v 0 ∧ 0 ≤ colProj E v 1 ∧ 0 ≤ colProj E v 2)
  else false

open Classical in
/-- Lines 71-74: the test in two dimensions. -/
noncomputable def inBox2 (E : Matrix (Fin 2) (Fin 2) ℝ) (v : Fin 2 → ℝ) : Bool :=
  decide (Real.sqrt (∑ j, (v ᵥ* E) j * (v ᵥ* E) j) ≤ 1.05 * (colNorm E 0 + colNorm E 1))

/-- Lines 79-82: the end of `box`. -/
def boxEnd {w : ℕ} (l : List (Fin w → ℝ)) : BoxRes w := if 0 < l.length then .pts l else .zeros

/-- `visualization.py` lines 50-82, `box`, for a list of points of the same length.  `v_list[0]` is read only if `E`
has the right shape, and raises `IndexError` for the empty list. -/
noncomputable def box {w r c : ℕ} (vs : List (Fin w → ℝ)) (E : Matrix (Fin r) (Fin c) ℝ) (n : ℤ) :
    Except Err (BoxRes w) :=
  if n = 3 then
    if h : r = 3 ∧ c = 3 then
      if vs = [] then .error .indexError
      else if hw : w = 3 then
        .ok (boxEnd (vs.filter fun v =>
          inBox3 (E.submatrix (Fin.cast h.1.symm) (Fin.cast h.2.symm)) (fun i => v (Fin.cast hw.symm i))))
      else .ok .nothing
    else .ok .nothing
  else if n = 2 then
    if h : r = 2 ∧ c = 2 then
      if vs = [] then .error .indexError
      else if hw : w = 2 then
        .ok (boxEnd (vs.filter fun v =>
          inBox2 (E.submatrix (Fin.cast h.1.symm) (Fin.cast h.2.symm)) (fun i => v (Fin.cast hw.symm i))))
      else .ok (boxEnd [])
    else .ok (boxEnd [])
  else .error .visualError

/-! ### `UnitCell` -/

/-- How Python binds the arguments of a call: `params` are the names of the parameters, `npos` arguments are
given by position and `kws` by name.  A name that is unknown or already bound, or too many arguments, raise
`TypeError`.  Used for the call of `visualization.py` line 111. -/
def bindArgs (params : List String) (npos : ℕ) (kws : List String) : Except Err Unit :=
  if params.length < npos then .error .typeError
  else if kws.all fun k => (params.drop npos).contains k then .ok () else .error .typeError

/-- `bravais_lattice.py` line 14: the parameters of `BravaisLattice.__init__`. -/
def bravaisParams : List String := ["latID", "latParam", "dim"]

/-- A `UnitCell` object.  `visualization.py` lines 107-113. -/
structure UnitCell where
  lattice : BLat
  o : List ℝ
  dim : ℤ

/-- `visualization.py` lines 107-113, the constructor `UnitCell(origin, lat_ID, lat_Params, N)`: line 111 calls
`BravaisLattice(lat_ID, lat_Params, N=3)`. -/
noncomputable def UnitCell.new (py : Py) (origin : List ℝ) (latID : ℤ) (params : PArg) (N : ℤ) : Except Err UnitCell :=
  match bindArgs bravaisParams 2 ["N"] with
  | .error e => .error e
  | .ok _ =>
    match BLat.new py latID params 3 with
    | .error e => .error e
    | .ok L => .ok ⟨L, origin, N⟩

/-! ### `pole_figure` -/

/-- The argument `plist` after `np.array`: more than two dimensions, one, or two.  `stereogram.py` lines
58-65. -/
inductive PoleArg
  | deep
  | vec (k : ℕ) (p : Fin k → ℝ)
  | mat (m k : ℕ) (p : Matrix (Fin m) (Fin k) ℝ)

/-- `stereogram.py` lines 66-71: the loop. -/
noncomputable def poleLoop (rnd : ℝ → ℝ) (z : Fin 3 → ℝ) : List (Fin 3 → ℝ) → Except Err (List (Option (Fin 2 → ℝ)))
  | [] => .ok []
  | p :: ps =>
    match stereoProj rnd p z with
    | .error e => .error e
    | .ok q =>
      match poleLoop rnd z ps with
      | .error e => .error e
      | .ok qs => .ok (q :: qs)

/-- `stereogram.py` lines 47-72, `pole_figure`; `none` is the `None` returned after a message.  The vectors `z_1` and
`z_2` computed first are not used. -/
noncomputable def poleFigure (rnd : ℝ → ℝ) (a : PoleArg) (z : Fin 3 → ℝ) :
    Except Err (Option (List (Option (Fin 2 → ℝ)))) :=
  match a with
  | .deep => .ok none
  | .vec k p =>
    if h : k = 3 then
      match poleLoop rnd z [fun i => p (Fin.cast h.symm i)] with
      | .error e => .error e
      | .ok l => .ok (some l)
    else .ok none
  | .mat m k p =>
    if h : k = 3 then
      match poleLoop rnd z (List.ofFn fun (r : Fin m) i => p r (Fin.cast h.symm i)) with
      | .error e => .error e
      | .ok l => .ok (some l)
    else .ok none

end Verif.Model
