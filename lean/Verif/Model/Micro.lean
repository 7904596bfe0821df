import Verif.Model.SetLaue

/-!
# Model of the class `Microstructure` (`structrans/marttrans/Compatibility.py` lines 68-120)

`UArg.arr` is a NumPy array, `UArg.num` a number; nested lists are not modelled.  The fields `_uList` and `_laueIdx`
are never read.
-/

namespace Verif.Model

open Matrix

/-- A `Microstructure` object: `_U`, which may be missing and may be any object, and the elements of `_Laue`.
Lines 81-88. -/
structure Micro where
  U : Option UArg
  laue : List M3

/-- Lines 77-88, the constructor: no argument, a stretch, or a stretch and a group (further arguments are ignored).
Nothing is checked or converted. -/
noncomputable def Micro.new : Option (UArg × Option (List M3)) → Micro
  | none => ⟨none, cubicR⟩
  | some (u, none) => ⟨some u, cubicR⟩
  | some (u, some G) => ⟨some u, G⟩

/-- Lines 90-91, `getU`. -/
def Micro.getU (m : Micro) : Except Err UArg :=
  match m.U with
  | none => .error .attributeError
  | some u => .ok u

/-- Lines 93-107, `setU`.  `MartensiteError` (line 107) is not defined in the module.  Several arguments one of which
is an array make a ragged nested list, which `np.array` refuses. -/
noncomputable def Micro.setU (m : Micro) : List UArg → Except Err Micro
  | [.arr A] => .ok ⟨some (.arr A), m.laue⟩
  | [.num a] => .ok ⟨some (.arr (.mat 3 3 false (Matrix.diagonal ![a, a, a]))), m.laue⟩
  | [.num a, .num b] => .ok ⟨some (.arr (.mat 3 3 false (Matrix.diagonal ![a, a, b]))), m.laue⟩
  | [.num a, .num b, .num c] => .ok ⟨some (.arr (.mat 3 3 false !![a, b, 0; b, a, 0; 0, 0, c])), m.laue⟩
  | [.num a, .num b, .num c, .num d] => .ok ⟨some (.arr (.mat 3 3 false !![a, b, 0; b, c, 0; 0, 0, d])), m.laue⟩
  | args => if args.length = 0 ∨ 4 < args.length then .error .nameError else .error .valueError

/-- Lines 110-111, `getLaue`. -/
def Micro.getLaue (m : Micro) : List M3 := m.laue

/-- Lines 112-119, `setLaue`.  The table of sample parameters is the one of `martensite.py`.  `BravaisLattice` has no
method `getLaueGroup` (line 117), and `MartensiteError` (line 119) is not defined. -/
noncomputable def Micro.setLaue (py : Py) (_ : Micro) : LaueArg → Except Err Micro
  | .int k =>
    if 0 < k ∧ k ≤ 14 then
      match BLat.new py k (laueParams.getD (k - 1).toNat .other) 3 with
      | .error e => .error e
      | .ok _ => .error .attributeError
    else .error .nameError
  | _ => .error .nameError

/-- A call of a method that may change the object.  Lines 93 and 112. -/
inductive MicroCall
  | setU (args : List UArg)
  | setLaue (arg : LaueArg)

/-- The object after a call; an exception leaves it as it was.  Lines 93-119. -/
noncomputable def Micro.step (py : Py) (m : Micro) (c : MicroCall) : Micro :=
  match (match c with
    | .setU args => m.setU args
    | .setLaue arg => m.setLaue py arg) with
  | .ok m' => m'
  | .error _ => m

end Verif.Model
