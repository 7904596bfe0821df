import Verif.Model.LatCor

/-!
# Model of `structrans/marttrans/lat_cor/solver.py`

The class `Solver` is the beginning of a rewrite of `lat_cor`: it constructs the lattices, makes the first
solutions and provides the functions that update them.  Printing and logging are left out.
-/

namespace Verif.Model

open Matrix

/-- `import structrans.marttrans.lat_cor.solver`.  Line 3, `from main_direct import ...`, is an implicit
relative import, which Python 3 does not have. -/
def importSolver : Py → Except Err Unit
  | .py2 => .ok ()
  | .py3 => .error .importError

/-- A `Solver` object of dimension `N` (line 45): the other arguments of the constructor that are used (lines
33-36, 42 and 43), the attributes `E_A`, `E_M` and `dist` that exist after lines 89-94 only, and the attributes
set to `None` by the constructor (lines 73-77): `alpha`, the groups `LG_A`, `LG_M` that the functions `add_sol`
and `update_sol` refer to, and the value of `alpha` used by `rmax`. -/
structure Solver (N : ℕ) where
  brava : ℤ
  pa : PArg
  bravm : ℤ
  pm : PArg
  nsol : ℕ
  volTh : ℝ
  bases : Option (Matrix (Fin N) (Fin N) ℝ × Matrix (Fin N) (Fin N) ℝ)
  alpha : Option ℝ
  groups : Option (List (Matrix (Fin N) (Fin N) ℤ) × List (Matrix (Fin N) (Fin N) ℤ))
  rmax : Option ℝ

/-- Lines 17-77, the constructor. -/
noncomputable def Solver.new (brava : ℤ) (pa : PArg) (bravm : ℤ) (pm : PArg) (kw : LatCorKw) :
    Solver (readkw kw.dim 3) :=
  ⟨brava, pa, bravm, pm, readkw kw.nsol 1, readkw kw.volTh 0.1, none, none, none, none⟩

/-- Lines 89-157 of `load_input`, from the two bases on: the object afterwards and the outcome.  The groups are
computed on lines 99-100, `quartMin` is the quartic minimisation of line 121. -/
noncomputable def Solver.loadCore {N : ℕ} (t : Tol)
    (quartMin : (Fin N × Fin N → Fin N × Fin N → Fin N × Fin N → Fin N × Fin N → ℝ) → ℝ) (s : Solver N)
    (EA EM : Matrix (Fin N) (Fin N) ℝ) : Solver N × Except Err Unit :=
  let s := { s with bases := some (EA, EM) }
  match Lat.latticeGroup t ⟨N, EA⟩ with
  | .error e => (s, .error e)
  | .ok GA =>
    match Lat.latticeGroup t ⟨N, EM⟩ with
    | .error e => (s, .error e)
    | .ok GM =>
      let s := { s with alpha := some (quartMin (quartD EA EM⁻¹)) }
      ({ s with groups := some (GA, GM) }, .ok ())

/-- Lines 79-157, `load_input`: the object afterwards and the outcome.  `none`: one of the bases is not finite,
which is not followed any further. -/
noncomputable def Solver.loadInput {N : ℕ} (t : Tol) (py : Py)
    (quartMin : (Fin N × Fin N → Fin N × Fin N → Fin N × Fin N → Fin N × Fin N → ℝ) → ℝ) (s : Solver N) :
    Solver N × Option (Except Err Unit) :=
  match BLat.new py s.brava s.pa N with
  | .error e => (s, some (.error e))
  | .ok LA =>
    match BLat.new py s.bravm s.pm N with
    | .error e => (s, some (.error e))
    | .ok LM =>
      match LA.E, LM.E with
      | some EA, some EM =>
        if hA : LA.N = N then
          if hM : LM.N = N then
            ((s.loadCore t quartMin (castSq hA hA EA) (castSq hM hM EM)).1,
              some (s.loadCore t quartMin (castSq hA hA EA) (castSq hM hM EM)).2)
          else (s, some (.error .valueError))
        else (s, some (.error .valueError))
      | _, _ => (s, none)

open Classical in
/-- Lines 160-184, `initialize`: the object afterwards and the outcome.  `shifts` is a finite piece of the stream
of random integer matrices (lines 168 and 172); `none`: the method is still drawing when it is used up.  Without
`load_input` the attribute `E_A` does not exist (line 165); if `add_sol` is `None` the first call of it raises
(line 176). -/
noncomputable def Solver.initialize {N : ℕ} (s : Solver N) (shifts : List (Matrix (Fin N) (Fin N) ℤ)) :
    Solver N × Option (Except Err (List (Sol (Matrix (Fin N) (Fin N) ℤ) ℝ) ×
      Finset (Matrix (Fin N) (Fin N) ℤ) × Option ℝ)) :=
  match s.bases with
  | none => (s, some (.error .attributeError))
  | some (EA, EM) =>
    let volOk : Matrix (Fin N) (Fin N) ℤ → Prop :=
      fun L => 1 - s.volTh < (L.det : ℝ) ∧ (L.det : ℝ) < 1 + s.volTh
    let samples := shifts.map (fun shift => startL0 EA EM + shift)
    match s.groups with
    | none => (s, if ∃ L ∈ samples, volOk L then some (.error .typeError) else none)
    | some (GA, GM) =>
      match initLoop (eqlatcor GA GM) (fun L => L.det ≠ 0) volOk s.nsol (fun L => cauchyDist L EA EM⁻¹) samples
          (max 20 (5 * s.nsol)) ([], ∅, none) with
      | .error e => (s, some (.error e))
      | .ok none => (s, none)
      | .ok (some r) => ({ s with rmax := s.alpha }, some (.ok r))

/-- Lines 141-155: a call `update_sol(ls, sols, ext_sols, dmax)` of the function made by `load_input`. -/
noncomputable def Solver.updateSol {N : ℕ} (s : Solver N) (ls : List (Matrix (Fin N) (Fin N) ℤ))
    (st : SearchState N ℝ) : Except Err (Bool × SearchState N ℝ) :=
  match s.bases, s.groups with
  | some (EA, EM), some (GA, GM) =>
    Model.updateSol (eqlatcor GA GM) (fun L => L.det ≠ 0) s.nsol (fun L => cauchyDist L EA EM⁻¹) ls
      st.1 st.2.1 st.2.2
  | _, _ => .error .typeError

/-- The calls a user can make, in any order.  Not part of the program. -/
inductive Solver.Call (N : ℕ)
  | load
  | init (shifts : List (Matrix (Fin N) (Fin N) ℤ))

/-- The object after a history of calls, the exceptions of which are caught.  Lines 79-157 and 160-184. -/
noncomputable def Solver.after {N : ℕ} (t : Tol) (py : Py)
    (quartMin : (Fin N × Fin N → Fin N × Fin N → Fin N × Fin N → Fin N × Fin N → ℝ) → ℝ) :
    Solver N → List (Solver.Call N) → Solver N
  | s, [] => s
  | s, .load :: calls => Solver.after t py quartMin (s.loadInput t py quartMin).1 calls
  | s, .init shifts :: calls => Solver.after t py quartMin (s.initialize shifts).1 calls

end Verif.Model
