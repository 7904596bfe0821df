import Verif.Model.Lattice

/-!
# Model of `structrans/marttrans/martensite.py`

Stretches are exact real 3×3 matrices, groups are lists of 3×3 matrices.  `__Ulist` and `__Laueidx` are
filled once from fields that no method changes, so `getvariants` and `getLaueidx` are functions of the
object.  Aliasing is the subject of `Model/Heap.lean`.
-/

namespace Verif.Model

open Matrix

/-- A 3×3 real matrix.  `martensite.py` line 18. -/
abbrev M3 := Matrix (Fin 3) (Fin 3) ℝ

/-- A `Martensite` object: `__U` (possibly not set) and the elements of `__Laue`.  `martensite.py` lines
17-21. -/
structure Mart where
  U : Option M3
  laue : List M3

/-- The default of `martensite.py` line 19: the elements of `CUBIC_LAUE_GROUP`. -/
noncomputable def cubicR : List M3 := cubicLaue.map toR

/-- An argument of `setU`: an array or nested list, or a number.  Other types are not modelled.
`martensite.py` lines 23-45. -/
inductive UArg
  | arr (A : Arr)
  | num (x : ℝ)

/-- `martensite.py` lines 28-45: the array described by the arguments.  `none` is the initial `None` of
line 29, which is left when five or more numbers are given; the exceptions of the `try` block (also
the `IndexError` for no arguments) become a `TypeError`. -/
noncomputable def uOf : List UArg → Except Err (Option M3)
  | [] => .error .typeError
  | .arr (.mat m n _ M) :: _ =>
    if h : m = 3 ∧ n = 3 then .ok (some (M.submatrix (Fin.cast h.1.symm) (Fin.cast h.2.symm)))
    else .error .typeError
  | .arr _ :: _ => .error .typeError
  | [.num a] => .ok (some (Matrix.diagonal ![a, a, a]))
  | [.num a, .num b] => .ok (some (Matrix.diagonal ![a, a, b]))
  | [.num a, .num b, .num c] => .ok (some !![a, b, 0; b, a, 0; 0, 0, c])
  | [.num a, .num b, .num c, .num d] => .ok (some !![a, b, 0; b, c, 0; 0, 0, d])
  | .num _ :: rest =>
    -- an array among the later arguments makes the nested list ragged
    if rest.length ≤ 3 then .error .typeError else .ok none

open Classical in
/-- `martensite.py` lines 23-53, `setU`.  Line 47 reads an attribute of `None` when there is no array. -/
noncomputable def Mart.setU (m : Mart) (args : List UArg) : Except Err Mart :=
  match uOf args with
  | .error e => .error e
  | .ok none => .error .attributeError
  | .ok (some U) =>
    if ¬ U = Uᵀ then .error .typeError
    else if ¬ 0 < U.det then .error .typeError
    else .ok ⟨some U, m.laue⟩

/-- `martensite.py` lines 55-64, `getU`. -/
def Mart.getU (m : Mart) : Except Err M3 :=
  match m.U with
  | none => .error .attributeError
  | some U => .ok U

/-- `martensite.py` lines 85-86, `setLaue` for a group. -/
def Mart.setLaueGroup (m : Mart) (G : List M3) : Mart := ⟨m.U, G⟩

/-- `martensite.py` lines 118-133, `isreversible`. -/
noncomputable def Mart.isReversible (t : Tol) (m : Mart) : Except Err Bool :=
  match m.U with
  | none => .error .attributeError
  | some U =>
    match Lat.new (.mat 3 3 false U) with
    | .error e => .error e
    | .ok _ =>
      match Lat.laueGroup t ⟨3, U⟩ with
      | .error e => .error e
      | .ok lg => .ok (decide (lg.length ≤ m.laue.length) && hasSubgroup t m.laue lg)

open Classical in
/-- `martensite.py` lines 159-162: append the index `i` to the lists of all the variants that match `V`;
the Boolean is `newU`. -/
noncomputable def addIndex (t : Tol) (V : M3) (i : ℕ) : List M3 → List (List ℕ) → List (List ℕ) × Bool
  | U :: us, l :: ls =>
    let r := addIndex t V i us ls
    if allclose t U V then ((l ++ [i]) :: r.1, false) else (l :: r.1, r.2)
  | _, ls => (ls, true)

/-- `martensite.py` lines 157-166: one pass of the outer loop. -/
noncomputable def variantStep (t : Tol) (U1 : M3) (s : List M3 × List (List ℕ)) (iQ : ℕ × M3) :
    List M3 × List (List ℕ) :=
  let V := iQ.2 * U1 * iQ.2ᵀ
  let r := addIndex t V iQ.1 s.1 s.2
  if r.2 then (s.1 ++ [V], r.1 ++ [[iQ.1]]) else (s.1, r.1)

/-- `martensite.py` lines 153-166: the list of variants and the list of index lists. -/
noncomputable def variantLoop (t : Tol) (U1 : M3) (G : List M3) : List M3 × List (List ℕ) :=
  (G.zipIdx.map Prod.swap).foldl (variantStep t U1) ([U1], [[]])

/-- `martensite.py` lines 140-169, `calcvariants`. -/
noncomputable def Mart.calcVariants (t : Tol) (m : Mart) : Except Err (List M3 × List (List ℕ)) :=
  match m.isReversible t with
  | .error e => .error e
  | .ok false => .error .attributeError
  | .ok true =>
    match m.U with
    | none => .error .attributeError
    | some U => .ok (variantLoop t U m.laue)

/-- `martensite.py` lines 93-105, `getvariants`. -/
noncomputable def Mart.getVariants (t : Tol) (m : Mart) : Except Err (List M3) :=
  match m.calcVariants t with
  | .error e => .error e
  | .ok r => .ok r.1

/-- `martensite.py` lines 107-116, `getvariant`: `__Ulist[n - 1]`, with Python's negative indices. -/
noncomputable def Mart.getVariant (t : Tol) (m : Mart) (n : ℤ) : Except Err M3 :=
  match m.calcVariants t with
  | .error e => .error e
  | .ok r =>
    let i := if n - 1 < 0 then n - 1 + r.1.length else n - 1
    if i < 0 then .error .indexError
    else match r.1[i.toNat]? with
      | none => .error .indexError
      | some V => .ok V

/-- `martensite.py` lines 135-138, `getLaueidx`. -/
noncomputable def Mart.getLaueIdx (t : Tol) (m : Mart) : Except Err (List (List ℕ)) :=
  match m.calcVariants t with
  | .error e => .error e
  | .ok r => .ok r.2

end Verif.Model
