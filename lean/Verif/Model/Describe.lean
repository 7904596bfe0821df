import Verif.Model.Bravais
import Verif.Model.Format

/-!
# Model: descriptions of lattices (`crystallography/bravais_lattice.py`, `crystallography/lattice.py`)

A description is modelled twice: by its parts, in the order of the text, with exact numbers (`describe`), and
character by character (`BLat.str`).  Simplification: `Lattice.__str__` is modelled by its parts only, because it
prints the vectors with the `str` of numpy.
-/

namespace Verif.Model

/-- What `str(lattice)` says about a Bravais lattice: the dimension, the words naming the type and the named
values.  `bravais_lattice.py` lines 221-282. -/
structure Description where
  dim : ℕ
  family : String
  centring : String
  values : List (String × ℝ)

/-- `bravais_lattice.py` lines 229-242, `des_list` for three dimensions. -/
def typeNames3 : List (String × String) :=
  [("Cubic", "P"), ("Cubic", "F"), ("Cubic", "I"), ("Hexagonal", "P"), ("Rhombohedral", "P"), ("Tetragonal", "P"),
    ("Tetragonal", "I"), ("Orthorhombic", "P"), ("Orthorhombic", "C"), ("Orthorhombic", "F"), ("Orthorhombic", "I"),
    ("Monoclinic", "P"), ("Monoclinic", "C"), ("Triclinic", "P")]

/-- `bravais_lattice.py` lines 266-270, `des_list` for two dimensions. -/
def typeNames2 : List (String × String) :=
  [("Square", "P"), ("Rectangular", "P"), ("Rectangular", "I"), ("Hexagonal", "P"), ("Oblique", "P")]

/-- `des_str + ', name = {:g}'.format(self.__latParam[i])` if the condition holds.  `bravais_lattice.py` lines
246-263 and 274-280. -/
noncomputable def addValue (x : Nums) (cond : Bool) (name : String) (i : ℕ) :
    Except Err (List (String × ℝ)) → Except Err (List (String × ℝ))
  | .error e => .error e
  | .ok l =>
    if cond then
      match x.vals[i]? with
      | none => .error .indexError
      | some v => .ok (l ++ [(name, v)])
    else .ok l

/-- `bravais_lattice.py` lines 221-282, `BravaisLattice.__str__`.  The constructor has checked that the
identifier is in the range of `des_list`. -/
noncomputable def BLat.describe (L : BLat) : Except Err Description :=
  let n := L.latID
  let x := L.latParam
  if L.N = 3 then
    match typeNames3[(n - 1).toNat]? with
    | none => .error .indexError
    | some ty =>
      let l := addValue x true "a" 0 (.ok [])
      let l := addValue x (decide (8 ≤ n ∧ n < 15)) "b" 1 l
      let l := addValue x (decide (n = 4 ∨ n = 6 ∨ n = 7)) "c" 1 l
      let l := addValue x (decide (8 ≤ n ∧ n < 15)) "c" 2 l
      let l := addValue x (decide (n = 5 ∨ n = 14)) "alpha" 1 l
      let l := addValue x (decide (n = 12 ∨ n = 13)) "beta" 3 l
      let l := addValue x (decide (n = 14)) "beta" 4 l
      let l := addValue x (decide (n = 14)) "gamma" 5 l
      match l with
      | .error e => .error e
      | .ok l => .ok ⟨3, ty.1, ty.2, l⟩
  else
    match typeNames2[(n - 1).toNat]? with
    | none => .error .indexError
    | some ty =>
      let l := addValue x true "a" 0 (.ok [])
      let l := addValue x (decide (n = 2 ∨ n = 3 ∨ n = 5)) "b" 1 l
      let l := addValue x (decide (n = 5)) "gamma" 2 l
      match l with
      | .error e => .error e
      | .ok l => .ok ⟨2, ty.1, ty.2, l⟩

/-- `lattice.py` lines 186-190, `Lattice.__str__`: the dimension and the lines `e_i = ...`. -/
def Lat.describe (L : Lat) : ℕ × List (ℕ × List ℝ) :=
  (L.N, (List.finRange L.N).map fun i => (i.val + 1, (List.finRange L.N).map fun k => L.E k i))

/-- `bravais_lattice.py` lines 229-242, `des_list` for three dimensions, as written. -/
def desList3 : List String :=
  ["Cubic P", "Cubic F (face centered cubic)", "Cubic I (body centered cubic)", "Hexagonal P", "Rhombohedral P",
    "Tetragonal P", "Tetragonal I (body centered tetragonal)", "Orthorhombic P",
    "Orthorhombic C (base centered orthorhombic)", "Orthorhombic F (face centered orthorhombic)",
    "Orthorhombic I (body centered orthorhombic)", "Monoclinic P", "Monoclinic C (base centered monoclinic)",
    "Triclinic P"]

/-- `bravais_lattice.py` lines 266-270, `des_list` for two dimensions, as written. -/
def desList2 : List String :=
  ["Square P", "Rectangular P", "Rectangular I (centered rectangular)", "Hexagonal P", "Oblique P"]

/-- `des_str + sep + name + ' = {:g}'.format(self.__latParam[i])` if the condition holds.  `bravais_lattice.py`
lines 246-263 and 274-280. -/
noncomputable def addText (x : Nums) (cond : Bool) (sep name : String) (i : ℕ) :
    Except Err (List Char) → Except Err (List Char)
  | .error e => .error e
  | .ok s =>
    if cond then
      match x.vals[i]? with
      | none => .error .indexError
      | some v => .ok (s ++ sep.toList ++ name.toList ++ " = ".toList ++ fmtG v)
    else .ok s

/-- `bravais_lattice.py` lines 221-282, `BravaisLattice.__str__`, the text. -/
noncomputable def BLat.str (L : BLat) : Except Err (List Char) :=
  let n := L.latID
  let x := L.latParam
  if L.N = 3 then
    match desList3[(n - 1).toNat]? with
    | none => .error .indexError
    | some des =>
      let s := addText x true ":    " "a" 0 (.ok ("3D Bravais Lattice - ".toList ++ des.toList))
      let s := addText x (decide (8 ≤ n ∧ n < 15)) ",    " "b" 1 s
      let s := addText x (decide (n = 4 ∨ n = 6 ∨ n = 7)) ",    " "c" 1 s
      let s := addText x (decide (8 ≤ n ∧ n < 15)) ",    " "c" 2 s
      let s := addText x (decide (n = 5 ∨ n = 14)) ",    " "alpha" 1 s
      let s := addText x (decide (n = 12 ∨ n = 13)) ",    " "beta" 3 s
      let s := addText x (decide (n = 14)) ",    " "beta" 4 s
      addText x (decide (n = 14)) ",    " "gamma" 5 s
  else
    match desList2[(n - 1).toNat]? with
    | none => .error .indexError
    | some des =>
      let s := addText x true ":    " "a" 0 (.ok ("2D Bravais Lattice - ".toList ++ des.toList))
      let s := addText x (decide (n = 2 ∨ n = 3 ∨ n = 5)) ",    " "b" 1 s
      addText x (decide (n = 5)) ",    " "gamma" 2 s

end Verif.Model
