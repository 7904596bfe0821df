import Verif.Model.MatrixGroup

/-!
# Model of `structrans/crystallography/lattice.py`

Base matrices and group elements are exact real matrices.  Not modelled: underflow of
`la.det(E)**2` (line 20), numpy's missing `np.int` in recent versions (line 204), the caches of the
groups (they are filled once from the immutable base; see `Model/Heap.lean` for aliasing of the base).
-/

namespace Verif.Model

open Matrix

/-- What can be passed as a matrix argument: something `np.array` cannot convert, a 2-D array (with integer or
floating point `dtype`), or an array whose number of dimensions is not 2.  Lines 16-20, 59-62 and 75-78. -/
inductive Arr
  | invalid
  | nonmat
  | mat (m n : ℕ) (isInt : Bool) (M : Matrix (Fin m) (Fin n) ℝ)

/-- A `Lattice` object: its dimension and its base (columns are the base vectors).  Lines 24-26. -/
structure Lat where
  N : ℕ
  E : Matrix (Fin N) (Fin N) ℝ

/-- A square matrix seen through a possibly different pair of dimensions.  Not part of the program. -/
def castSq {m n k : ℕ} (h1 : m = k) (h2 : n = k) (M : Matrix (Fin m) (Fin n) ℝ) :
    Matrix (Fin k) (Fin k) ℝ :=
  M.submatrix (Fin.cast h1.symm) (Fin.cast h2.symm)

open Classical in
/-- `lattice.py` lines 13-30, `Lattice.__init__`.  Every exception inside the `try` block becomes a
`ValueError`; a conversion failure of line 17 is inside the block as well. -/
noncomputable def Lat.new : Arr → Except Err Lat
  | .invalid => .error .valueError
  | .nonmat => .error .valueError
  | .mat m n _ M =>
    if h : n = m then
      if (castSq rfl h M).det ^ 2 ≤ 0 then .error .valueError else .ok ⟨m, castSq rfl h M⟩
    else .error .valueError

/-- `lattice.py` lines 32-39, `base`. -/
def Lat.base (L : Lat) : Matrix (Fin L.N) (Fin L.N) ℝ := L.E

/-- `lattice.py` lines 45-51, `dimension`. -/
def Lat.dimension (L : Lat) : ℕ := L.N

/-- `np.rint` on an array.  Lines 79 and 183. -/
noncomputable def rintMat {m n : ℕ} (A : Matrix (Fin m) (Fin n) ℝ) : Matrix (Fin m) (Fin n) ℤ :=
  fun i j => roundEven (A i j)

/-- Integer arrays as floating point arrays.  Lines 79-80 and 183-184. -/
noncomputable def toR {m n : ℕ} (A : Matrix (Fin m) (Fin n) ℤ) : Matrix (Fin m) (Fin n) ℝ :=
  A.map (Int.cast : ℤ → ℝ)

open Classical in
/-- `lattice.py` lines 179-184: the test of `__eq__` for two bases of one dimension.  (`la.inv(E1)`
never raises for a constructed lattice, see `C11`.) -/
noncomputable def eqTest (t : Tol) {n : ℕ} (E1 E2 : Matrix (Fin n) (Fin n) ℝ) : Bool :=
  decide (allclose t (E1⁻¹ * E2) (toR (rintMat (E1⁻¹ * E2))))

/-- `lattice.py` lines 172-184, `L1 == L2`. -/
noncomputable def Lat.eq (t : Tol) (L1 L2 : Lat) : Bool :=
  if h : L2.N = L1.N then eqTest t L1.base (castSq h h L2.base) else false

open Classical in
/-- `lattice.py` lines 199-207, `_in_O3`, for a square array. -/
noncomputable def inO3 (t : Tol) {n : ℕ} (isInt : Bool) (Q : Matrix (Fin n) (Fin n) ℝ) : Bool :=
  if isInt then decide (|Q.det| = 1 ∧ Q * Qᵀ = 1)
  else decide (|(|Q.det| - 1)| < 1 / 10 ^ 6 ∧ allclose t (Q * Qᵀ) 1)

/-- `lattice.py` lines 53-67, `inpointgroup`.  Line 67 constructs a `Lattice`, which may raise. -/
noncomputable def Lat.inPointGroup (t : Tol) (L : Lat) : Arr → Except Err Bool
  | .invalid => .ok false
  | .nonmat => .ok false
  | .mat m n isInt Q =>
    if h : n = m then
      if inO3 t isInt (castSq rfl h Q) then
        if h' : m = L.N then
          match Lat.new (.mat L.N L.N false (castSq h' (h.trans h') Q * L.E)) with
          | .error e => .error e
          | .ok L2 => .ok (Lat.eq t L L2)
        else .ok false
      else .ok false
    else .ok false

open Classical in
/-- `lattice.py` lines 69-85, `inlatticegroup`, for a 2-D array.  `np.dot` raises `ValueError` on
mismatching shapes.  The product `Q` of line 84 is a floating point array (`la.inv` is). -/
noncomputable def Lat.inLatticeGroup (t : Tol) (L : Lat) {m k : ℕ} (M : Matrix (Fin m) (Fin k) ℝ) :
    Except Err Bool :=
  if allclose t M (toR (rintMat M)) then
    if h : m = L.N then
      if h' : k = L.N then .ok (inO3 t false (L.base * castSq h h' M * L.base⁻¹))
      else .error .valueError
    else .error .valueError
  else .ok false

/-- The array handed to `inpointgroup` by the filters of lines 96-105 and 124-127. -/
noncomputable def NMat.arr {n : ℕ} : NMat n → Arr
  | .int M => .mat n n true (toR M)
  | .float M => .mat n n false M

/-- `[Q for Q in G if self.inpointgroup(Q)]` (`lattice.py` lines 96, 98, 102, 104, 125, 127). -/
noncomputable def Lat.filter (t : Tol) (L : Lat) {n : ℕ} : List (NMat n) →
    Except Err (List (Matrix (Fin n) (Fin n) ℝ))
  | [] => .ok []
  | Q :: Qs =>
    match L.inPointGroup t Q.arr with
    | .error e => .error e
    | .ok b =>
      match Lat.filter t L Qs with
      | .error e => .error e
      | .ok r => .ok (if b then Q.val :: r else r)

/-- `lattice.py` lines 95-100 (and, with other tables, 101-106 and 124-129): filter the table `G`; when
exactly `k` elements are left, filter the hexagonal table and take the result if it is larger. -/
noncomputable def Lat.select (t : Tol) (L : Lat) {n : ℕ} (G H : List (NMat n)) (k : ℕ) :
    Except Err (List (Matrix (Fin n) (Fin n) ℝ)) :=
  match L.filter t G with
  | .error e => .error e
  | .ok g =>
    if g.length = k then
      match L.filter t H with
      | .error e => .error e
      | .ok h => .ok (if g.length < h.length then h else g)
    else .ok g

/-- A list of group elements of the lattice's own dimension, cast from dimension `n`.  Not part of the
program. -/
def castList {n N : ℕ} (h : n = N) (l : List (Matrix (Fin n) (Fin n) ℝ)) :
    List (Matrix (Fin N) (Fin N) ℝ) := l.map (castSq h h)

/-- `lattice.py` lines 87-107, `Laue_group`. -/
noncomputable def Lat.laueGroup (t : Tol) (L : Lat) :
    Except Err (List (Matrix (Fin L.N) (Fin L.N) ℝ)) :=
  if h3 : 3 = L.N then
    match L.select t (cubicLaue.map .int) hexLaue 4 with
    | .error e => .error e
    | .ok g => .ok (castList h3 g)
  else if h2 : 2 = L.N then
    match L.select t (squareRot.map .int) hex2dRot 2 with
    | .error e => .error e
    | .ok g => .ok (castList h2 g)
  else .error .attributeError

/-- `lattice.py` lines 113-130, `point_group`. -/
noncomputable def Lat.pointGroup (t : Tol) (L : Lat) :
    Except Err (List (Matrix (Fin L.N) (Fin L.N) ℝ)) :=
  if 3 = L.N then
    match L.laueGroup t with
    | .error e => .error e
    | .ok g => .ok (g ++ g.map (fun Q => -Q))
  else if h2 : 2 = L.N then
    match L.select t (squareExt.map .int) hex2dExt 4 with
    | .error e => .error e
    | .ok g => .ok (castList h2 g)
  else .error .attributeError

/-- `np.rint(Einv.dot(Q.dot(E)))` as an integer array (`lattice.py` lines 147, 165). -/
noncomputable def Lat.conj (L : Lat) (Q : Matrix (Fin L.N) (Fin L.N) ℝ) :
    Matrix (Fin L.N) (Fin L.N) ℤ :=
  rintMat (L.E⁻¹ * (Q * L.E))

/-- `lattice.py` lines 136-148, `special_lattice_group`.  (`__specLatticeGroup` is never assigned, so
the test of line 144 always succeeds.) -/
noncomputable def Lat.specialLatticeGroup (t : Tol) (L : Lat) :
    Except Err (List (Matrix (Fin L.N) (Fin L.N) ℤ)) :=
  match L.laueGroup t with
  | .error e => .error e
  | .ok g => .ok (g.map L.conj)

/-- `lattice.py` lines 154-166, `lattice_group`. -/
noncomputable def Lat.latticeGroup (t : Tol) (L : Lat) :
    Except Err (List (Matrix (Fin L.N) (Fin L.N) ℤ)) :=
  match L.pointGroup t with
  | .error e => .error e
  | .ok g => .ok (g.map L.conj)

/-- `lattice.py` lines 41-43, `getbase`. -/
def Lat.getbase (L : Lat) : Matrix (Fin L.N) (Fin L.N) ℝ := L.base

/-- `lattice.py` lines 109-111, `getLauegroup`. -/
noncomputable def Lat.getLauegroup (t : Tol) (L : Lat) :
    Except Err (List (Matrix (Fin L.N) (Fin L.N) ℝ)) := L.laueGroup t

/-- `lattice.py` lines 132-134, `getpointgroup`. -/
noncomputable def Lat.getpointgroup (t : Tol) (L : Lat) :
    Except Err (List (Matrix (Fin L.N) (Fin L.N) ℝ)) := L.pointGroup t

/-- `lattice.py` lines 150-152, `getspeciallatticegroup`. -/
noncomputable def Lat.getspeciallatticegroup (t : Tol) (L : Lat) :
    Except Err (List (Matrix (Fin L.N) (Fin L.N) ℤ)) := L.specialLatticeGroup t

/-- `lattice.py` lines 168-170, `getlatticegroup`: it calls `special_lattice_group`. -/
noncomputable def Lat.getlatticegroup (t : Tol) (L : Lat) :
    Except Err (List (Matrix (Fin L.N) (Fin L.N) ℤ)) := L.specialLatticeGroup t

end Verif.Model
