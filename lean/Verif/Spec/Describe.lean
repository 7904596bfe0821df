import Verif.Spec.Bravais
import Verif.Spec.PrintedReport

/-!
# Specification: reading the description of a Bravais lattice

What a crystallographer concludes from the name of the type and the named values.  Nothing in this file refers
to the model of the code.
-/

namespace Verif.Spec

/-- The value with the given name. -/
def valueOf (l : List (String × ℝ)) (name : String) : Option ℝ := (l.find? fun x => x.1 = name).map Prod.snd

/-- The length `a`, and `b` and `c` where they are not equal to it. -/
def readLengths (l : List (String × ℝ)) : Option (Fin 3 → ℝ) :=
  (valueOf l "a").map fun a => ![a, (valueOf l "b").getD a, (valueOf l "c").getD a]

/-- The angles of the conventional cell of the crystal families, in degrees. -/
def readAngles (family : String) (l : List (String × ℝ)) : Option (Fin 3 → ℝ) :=
  if family = "Cubic" ∨ family = "Tetragonal" ∨ family = "Orthorhombic" then some ![90, 90, 90]
  else if family = "Hexagonal" then some ![90, 90, 60]
  else if family = "Rhombohedral" then (valueOf l "alpha").map fun x => ![x, x, x]
  else if family = "Monoclinic" then (valueOf l "beta").map fun x => ![90, x, 90]
  else if family = "Triclinic" then
    match valueOf l "alpha", valueOf l "beta", valueOf l "gamma" with
    | some x, some y, some z => some ![x, y, z]
    | _, _, _ => none
  else none

/-- The lengths in two dimensions. -/
def readLengths2 (l : List (String × ℝ)) : Option (Fin 2 → ℝ) :=
  (valueOf l "a").map fun a => ![a, (valueOf l "b").getD a]

/-- The angle of the conventional cell in two dimensions. -/
def readAngle2 (family : String) (l : List (String × ℝ)) : Option ℝ :=
  if family = "Square" ∨ family = "Rectangular" then some 90
  else if family = "Hexagonal" then some 60
  else if family = "Oblique" then valueOf l "gamma"
  else none

/-- Lattice points per conventional cell for the centring symbols. -/
def readPoints (centring : String) : Option ℤ :=
  if centring = "P" then some 1
  else if centring = "C" ∨ centring = "I" then some 2
  else if centring = "F" then some 4
  else none

/-- The words of a text. -/
def wordsOf (l : List Char) : List (List Char) := (cut isSep l).filter (· ≠ [])

/-- The statements `name = number` among the words of a text. -/
def statements : List (List Char) → List (List Char × ℚ)
  | w :: e :: n :: rest =>
    if e = ['='] then
      match readToken n with
      | some q => (w, q) :: statements rest
      | none => statements (e :: n :: rest)
    else statements (e :: n :: rest)
  | _ => []

example : statements (wordsOf "3D Bravais Lattice - Cubic F (face centered cubic):    a = 2.5,    b = 1e-05".toList) =
    [(['a'], 5 / 2), (['b'], 1 / 100000)] := by decide +kernel

end Verif.Spec
