import Mathlib.Analysis.SpecialFunctions.Trigonometric.Basic
import Verif.Model.Lattice

/-!
# Model of `structrans/crystallography/bravais_lattice.py`

Floating point numbers are exact reals, except that the square root of a negative number (numpy: NaN
and a warning) and a division by a vanishing sine (numpy: inf or NaN and a warning) make the whole base
non-finite, which is modelled by `none`.  `np.alen` (lines 37, 43) is taken to be the length of the
array, as in the numpy versions that still have it.  `__str__` (lines 221-282) is in `Verif.Model.Describe`.
-/

namespace Verif.Model

open Matrix

/-- A one-dimensional numpy array of numbers with integer or floating point `dtype`.  Lines 19-23. -/
inductive Nums
  | int (l : List ℤ)
  | float (l : List ℝ)

/-- The values of the array.  Lines 19-23. -/
noncomputable def Nums.vals : Nums → List ℝ
  | .int l => l.map (Int.cast : ℤ → ℝ)
  | .float l => l

/-- Whether the `dtype` is an integer one.  Lines 19-23. -/
def Nums.isInt : Nums → Bool
  | .int _ => true
  | .float _ => false

/-- The argument `latParam` of line 14: a number (lines 22-23), a list or 1-D array, or anything else
(nested lists, tuples, arrays that are not 1-D, strings), which lines 24-29 turn into a `ValueError`. -/
inductive PArg
  | num (x : Nums)
  | list (x : Nums)
  | other

/-- Lines 18-29: the checked parameter array.  A number becomes an array of length 1 (the array `x`
of `.num x`). -/
noncomputable def checkParam : PArg → Except Err Nums
  | .other => .error .valueError
  | .num x => if ∃ v ∈ x.vals, v ≤ 0 then .error .valueError else .ok x
  | .list x => if ∃ v ∈ x.vals, v ≤ 0 then .error .valueError else .ok x

/-- `x / y` for two numpy numbers of one `dtype`: `bravais_lattice.py` does not import `division` from
`__future__`, so integers are floor-divided under Python 2.  Lines 58-219. -/
noncomputable def npdiv (py : Py) (isInt : Bool) (x y : ℝ) : ℝ :=
  if py = .py2 ∧ isInt = true then (⌊x / y⌋ : ℝ) else x / y

/-- `math.radians`, and `p * np.pi / 180`.
Lines 77, 117, 189, 198 and 210-212. -/
noncomputable def radians (x : ℝ) : ℝ := x * Real.pi / 180

/-- Lines 53-80, the first result of `__primitiveBase2D__`; each `e1`, `e2` of the code is a column. -/
noncomputable def primBase2 (n : ℤ) (p : ℕ → ℝ) : Matrix (Fin 2) (Fin 2) ℝ :=
  if n = 1 then !![p 0 * 1, p 0 * 0; p 0 * 0, p 0 * 1]ᵀ
  else if n = 2 then !![p 0 * 1, p 0 * 0; p 1 * 0, p 1 * 1]ᵀ
  else if n = 3 then !![(1 / 2) * p 0, (1 / 2) * p 1; (1 / 2) * -p 0, (1 / 2) * p 1]ᵀ
  else if n = 4 then
    !![p 0 * 1, p 0 * 0; p 0 * (1 / 2) * 1, p 0 * (1 / 2) * Real.sqrt 3]ᵀ
  else
    !![p 0 * 1, p 0 * 0; p 1 * Real.cos (radians (p 2)), p 1 * Real.sin (radians (p 2))]ᵀ

/-- The matrix `C` of lines 58-79. -/
noncomputable def centring2 (n : ℤ) : Matrix (Fin 2) (Fin 2) ℝ :=
  if n = 3 then (1 / 2 : ℝ) • !![1, -1; 1, 1] else 1

/-- Lines 83-219, the first result of `__primitiveBase3D__`; each `e1`, `e2`, `e3` of the code is a
column. -/
noncomputable def primBase3 (py : Py) (isInt : Bool) (n : ℤ) (p : ℕ → ℝ) :
    Option (Matrix (Fin 3) (Fin 3) ℝ) :=
  let a := p 0
  if n = 1 then some !![a * 1, a * 0, a * 0; a * 0, a * 1, a * 0; a * 0, a * 0, a * 1]ᵀ
  else if n = 2 then
    some ((1 / 2 * a) • !![1, 1, 0; 0, 1, 1; 1, 0, 1]ᵀ)
  else if n = 3 then
    some ((1 / 2 * a) • !![1, 1, 1; -1, 1, 1; -1, -1, 1]ᵀ)
  else if n = 4 then
    some !![a * 1, a * 0, a * 0; a * (1 / 2), a * (Real.sqrt 3 / 2), a * 0; 0, 0, p 1]ᵀ
  else if n = 5 then
    let c := Real.cos (radians (p 1))
    if (1 - c) / 6 < 0 ∨ (1 + 2 * c) / 3 < 0 then none
    else
      let ty := Real.sqrt ((1 - c) / 6)
      let tz := Real.sqrt ((1 + 2 * c) / 3)
      let u := tz - 2 * Real.sqrt 2 * ty
      let v := tz + Real.sqrt 2 * ty
      some ((a / Real.sqrt 3) • !![u, v, v; v, u, v; v, v, u]ᵀ)
  else if n = 6 then
    let c := p 1
    some !![a * 1, a * 0, a * 0; a * 0, a * 1, a * 0; c * 0, c * 0, c * 1]ᵀ
  else if n = 7 then
    let c := p 1
    let r := npdiv py isInt c a
    some ((npdiv py isInt a 2) • !![1, 1, r; -1, 1, r; -1, -1, r]ᵀ)
  else
    let b := p 1
    let c := p 2
    let h := fun x => npdiv py isInt x 2
    if n = 8 then some !![a, 0, 0; 0, b, 0; 0, 0, c]ᵀ
    else if n = 9 then some !![h a, h b, 0; h (-a), h b, 0; 0, 0, c]ᵀ
    else if n = 10 then some !![h a, h b, 0; 0, h b, h c; h a, 0, h c]ᵀ
    else if n = 11 then some !![h a, h b, h c; h (-a), h b, h c; h (-a), h (-b), h c]ᵀ
    else if n = 12 then
      let β := radians (p 3)
      some !![a, 0, 0; 0, b, 0; c * Real.cos β, 0, c * Real.sin β]ᵀ
    else if n = 13 then
      let β := radians (p 3)
      some !![h a, h b, 0; h (-a), h b, 0; c * Real.cos β, 0, c * Real.sin β]ᵀ
    else
      let α := radians (p 3)
      let β := radians (p 4)
      let γ := radians (p 5)
      let w := 1 + 2 * Real.cos α * Real.cos β * Real.cos γ - Real.cos α ^ 2 - Real.cos β ^ 2
        - Real.cos γ ^ 2
      if w < 0 ∨ Real.sin γ = 0 then none
      else
        some !![a, 0, 0; b * Real.cos γ, b * Real.sin γ, 0;
          c * Real.cos β, c * (Real.cos α - Real.cos β * Real.cos γ) / Real.sin γ,
          c * Real.sqrt w / Real.sin γ]ᵀ

/-- The matrix `C` of lines 88-204. -/
noncomputable def centring3 (n : ℤ) : Matrix (Fin 3) (Fin 3) ℝ :=
  if n = 2 ∨ n = 10 then (1 / 2 : ℝ) • !![1, 0, 1; 1, 1, 0; 0, 1, 1]
  else if n = 3 ∨ n = 7 ∨ n = 11 then (1 / 2 : ℝ) • !![1, -1, -1; 1, 1, -1; 1, 1, 1]
  else if n = 9 ∨ n = 13 then !![1 / 2, -1 / 2, 0; 1 / 2, 1 / 2, 0; 0, 0, 1]
  else 1

/-- A `BravaisLattice` object; the base is `none` if it has non-finite entries.  Lines 47-50. -/
structure BLat where
  N : ℕ
  E : Option (Matrix (Fin N) (Fin N) ℝ)
  latID : ℤ
  latParam : Nums
  C : Matrix (Fin N) (Fin N) ℝ

/-- `pramlen` of line 35. -/
def paramLen3 : List ℕ := [1, 1, 1, 2, 2, 2, 2, 3, 3, 3, 3, 4, 4, 6]

/-- `pramlen` of line 42. -/
def paramLen2 : List ℕ := [1, 2, 2, 1, 3]

/-- `p[i]`; the length has been checked before it is used.  Lines 58-219. -/
noncomputable def Nums.get (x : Nums) (i : ℕ) : ℝ := x.vals.getD i 0

/-- The base class constructor (line 47): a finite base is checked by `Lattice.__init__`; for a
non-finite one the comparison of `lattice.py` line 20 is false, so it is accepted. -/
noncomputable def initBase {N : ℕ} : Option (Matrix (Fin N) (Fin N) ℝ) → Except Err Unit
  | none => .ok ()
  | some E =>
    match Lat.new (.mat N N false E) with
    | .error e => .error e
    | .ok _ => .ok ()

/-- Lines 14-50, `BravaisLattice.__init__`.  For `dim` other than 2 and 3 the names `E`, `C` of line
47 are unbound. -/
noncomputable def BLat.new (py : Py) (latID : ℤ) (arg : PArg) (dim : ℤ) : Except Err BLat :=
  match checkParam arg with
  | .error e => .error e
  | .ok x =>
    if dim = 3 then
      if ¬ (1 ≤ latID ∧ latID < 15) then .error .valueError
      else if x.vals.length ≠ paramLen3.getD (latID - 1).toNat 0 then .error .valueError
      else
        let E := primBase3 py x.isInt latID x.get
        match initBase E with
        | .error e => .error e
        | .ok _ => .ok ⟨3, E, latID, x, (centring3 latID)⁻¹⟩
    else if dim = 2 then
      if ¬ (1 ≤ latID ∧ latID < 6) then .error .valueError
      else if x.vals.length ≠ paramLen2.getD (latID - 1).toNat 0 then .error .valueError
      else
        let E := some (primBase2 latID x.get)
        match initBase E with
        | .error e => .error e
        | .ok _ => .ok ⟨2, E, latID, x, (centring2 latID)⁻¹⟩
    else .error .unboundLocalError

/-- Lines 284-288, `Bravais_id`. -/
def BLat.id (L : BLat) : ℤ := L.latID

/-- Lines 290-292, `getLatID`. -/
def BLat.getLatID (L : BLat) : ℤ := L.id

/-- Lines 294-298, `lat_param`. -/
def BLat.latParams (L : BLat) : Nums := L.latParam

/-- Lines 300-302, `getLatParam`. -/
def BLat.getLatParam (L : BLat) : Nums := L.latParams

/-- Lines 304-311, `conventional_trans`. -/
def BLat.conventionalTrans (L : BLat) : Matrix (Fin L.N) (Fin L.N) ℝ := L.C

/-- Lines 313-315, `getConventionalTrans`. -/
def BLat.getConventionalTrans (L : BLat) : Matrix (Fin L.N) (Fin L.N) ℝ := L.conventionalTrans

/-- Lines 317-321, `conventional_base`. -/
noncomputable def BLat.conventionalBase (L : BLat) : Option (Matrix (Fin L.N) (Fin L.N) ℝ) :=
  L.E.map (fun E => E * L.conventionalTrans)

/-- Lines 323-325, `getConventionalBase`. -/
noncomputable def BLat.getConventionalBase (L : BLat) : Option (Matrix (Fin L.N) (Fin L.N) ℝ) :=
  L.conventionalBase

/-- The argument of the Miller index conversions after `np.array`: a 1-D array, a 2-D array, or an array with
another number of dimensions.  Lines 336-342 and 362-369. -/
inductive MIdx
  | vec {w : ℕ} (v : Fin w → ℝ)
  | mat {m w : ℕ} (M : Matrix (Fin m) (Fin w) ℝ)
  | other

/-- Lines 335-344 and 361-371: the array of indices, one per row. -/
def checkIdx (L : BLat) : MIdx → Except Err (Σ m : ℕ, Matrix (Fin m) (Fin L.N) ℝ)
  | .other => .error .valueError
  | @MIdx.vec w v =>
    if h : w = L.N then .ok ⟨1, fun _ j => v (Fin.cast h.symm j)⟩ else .error .valueError
  | @MIdx.mat m w M =>
    if h : w = L.N then .ok ⟨m, fun i j => M i (Fin.cast h.symm j)⟩ else .error .valueError

/-- `res[0] if len(idx) == 1 else res` (lines 347, 374). -/
def unpackIdx {N : ℕ} : (m : ℕ) → Matrix (Fin m) (Fin N) ℝ → MIdx
  | 1, M => .vec (M 0)
  | _, M => .mat M

/-- Lines 327-347, `to_primitive_Miller`. -/
def BLat.toPrimitiveMiller (L : BLat) (idx : MIdx) : Except Err MIdx :=
  match checkIdx L idx with
  | .error e => .error e
  | .ok ⟨m, I⟩ => .ok (unpackIdx m (L.C * Iᵀ)ᵀ)

/-- Lines 353-374, `to_conventional_Miller`. -/
noncomputable def BLat.toConventionalMiller (L : BLat) (idx : MIdx) : Except Err MIdx :=
  match checkIdx L idx with
  | .error e => .error e
  | .ok ⟨m, I⟩ => .ok (unpackIdx m (L.C⁻¹ * Iᵀ)ᵀ)

/-- Lines 349-351, `toPrimitive`: there is no method `to_primitive`. -/
def BLat.toPrimitive (_ : BLat) (_ : MIdx) : Except Err MIdx := .error .attributeError

/-- Lines 376-378, `toConventional`: the call lacks its argument. -/
def BLat.toConventional (_ : BLat) (_ : MIdx) : Except Err MIdx := .error .typeError

end Verif.Model
