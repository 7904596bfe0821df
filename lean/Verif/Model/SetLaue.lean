import Verif.Model.Martensite
import Verif.Model.Bravais

/-!
# Model of `setLaue` (`structrans/marttrans/martensite.py` lines 73-91)
-/

namespace Verif.Model

/-- `martensite.py` lines 77-83, the table `latParam`. -/
noncomputable def laueParams : List PArg := [
  .num (.int [2]), .num (.int [2]), .num (.int [2]),
  .list (.int [2, 3]),
  .list (.int [2, 120]),
  .list (.float [141 / 100, 2]), .list (.float [141 / 100, 2]),
  .list (.float [141 / 100, 142 / 100, 2]), .list (.float [141 / 100, 142 / 100, 2]),
  .list (.float [141 / 100, 142 / 100, 2]), .list (.float [141 / 100, 142 / 100, 2]),
  .list (.float [141 / 100, 142 / 100, 2, 89]), .list (.float [141 / 100, 142 / 100, 2, 89]),
  .list (.float [141 / 100, 142 / 100, 2, 89, 88, 92])]

/-- The argument of `setLaue`: a `MatrixGroup`, an `int` (a `bool` is one of `0`, `1`), or anything else.
`martensite.py` lines 85-91. -/
inductive LaueArg
  | group (G : List M3)
  | int (k : ℤ)
  | other

/-- The elements of the Laue group of a `BravaisLattice` (inherited from `Lattice`).  A lattice with a
non-finite base, or one that is not three-dimensional, does not occur for the parameters of `laueParams`; the
model raises for it.  `martensite.py` line 89. -/
noncomputable def BLat.laue3 (t : Tol) (L : BLat) : Except Err (List M3) :=
  match L.E with
  | none => .error .attributeError
  | some E =>
    match Lat.getLauegroup t ⟨L.N, E⟩ with
    | .error e => .error e
    | .ok g => if h : L.N = 3 then .ok (g.map (castSq h h)) else .error .attributeError

/-- `martensite.py` lines 73-91, `setLaue`; the receiver is not changed. -/
noncomputable def Mart.setLaue (t : Tol) (py : Py) (m : Mart) : LaueArg → Except Err Mart
  | .group G => .ok ⟨m.U, G⟩
  | .int k =>
    if 0 < k ∧ k ≤ 14 then
      match BLat.new py k (laueParams.getD (k - 1).toNat .other) 3 with
      | .error e => .error e
      | .ok L =>
        match L.laue3 t with
        | .error e => .error e
        | .ok g => .ok ⟨m.U, g⟩
    else .error .valueError
  | .other => .error .valueError

end Verif.Model
