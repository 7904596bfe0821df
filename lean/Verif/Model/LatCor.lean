import Verif.Model.Bravais
import Verif.Model.Direct
import Verif.Model.Report

/-!
# Model of `lat_cor`, `structrans/marttrans/lat_cor/main_direct.py` lines 46-335, as a whole

The parts have their own models: the lattices (`Verif.Model.Bravais`, `Verif.Model.Lattice`), the quartic
tensor, the distance and the radius (`Verif.Model.Dist`), the search (`Verif.Model.Direct`) and the
entries of the solutions (`Verif.Model.Report`).  Printing and logging are left out, except for the label
of the distance.  A lattice with a non-finite base is not followed any further.
-/

namespace Verif.Model

open Matrix

/-- The keyword arguments that have an effect on the result (lines 75-80); `none` stands
for an argument that is not given. -/
structure LatCorKw where
  nsol : Option ℕ := none
  volTh : Option ℝ := none
  dim : Option ℕ := none
  sliceSz : Option ℕ := none
  dist : Option String := none

/-- Lines 72-73, `readkw`. -/
def readkw {α : Type} (field : Option α) (default : α) : α :=
  match field with
  | some x => x
  | none => default

/-- What `lat_cor` takes from outside: the quartic minimisation (line 153), `la.eig` (line 243), the
iteration order of a set (line 232), a finite piece of the stream of random integer matrices (lines 195 and
199), and a bound for the number of rounds of the main loop. -/
structure Outside (N : ℕ) where
  quartMin : (Fin N × Fin N → Fin N × Fin N → Fin N × Fin N → Fin N × Fin N → ℝ) → ℝ
  eigsys : Matrix (Fin N) (Fin N) ℝ → (Fin N → ℝ) × Matrix (Fin N) (Fin N) ℝ
  order : Finset (Matrix (Fin N) (Fin N) ℤ) → List (Matrix (Fin N) (Fin N) ℤ)
  shifts : List (Matrix (Fin N) (Fin N) ℤ)
  rounds : ℕ

/-- Line 189: `L0 = np.floor(la.inv(E_A).dot(E_M))`. -/
noncomputable def startL0 {N : ℕ} (EA EM : Matrix (Fin N) (Fin N) ℝ) : Matrix (Fin N) (Fin N) ℤ :=
  Matrix.of fun i j => ⌊(EA⁻¹ * EM) i j⌋

open Classical in
/-- Lines 121-249, from the bases `E_A`, `E_M` and the centring matrices `C_A`, `C_M` on.  `la.inv(E_M)` and
`la.inv(E_A)` do not raise because the constructor has checked the bases.  Also returned: the checkpoints of
the search (not part of the program). -/
noncomputable def latCorCore (t : Tol) {N : ℕ} (o : Outside N) (nsol : ℕ) (volTh : ℝ) (sliceSz : ℕ)
    (EA EM CA CM : Matrix (Fin N) (Fin N) ℝ) : Except Err (Option (List (Report N)) × List (List ℤ)) :=
  let EMinv := EM⁻¹
  match Lat.latticeGroup t ⟨N, EA⟩ with
  | .error e => .error e
  | .ok GA =>
    match Lat.latticeGroup t ⟨N, EM⟩ with
    | .error e => .error e
    | .ok GM =>
      let alpha := o.quartMin (quartD EA EMinv)
      let samples := o.shifts.map (fun shift => startL0 EA EM + shift)
      match directSearch GA GM nsol (fun L => cauchyDist L EA EMinv) sliceSz (rmaxFn alpha)
          (fun L => 1 - volTh < (L.det : ℝ) ∧ (L.det : ℝ) < 1 + volTh) samples o.rounds with
      | .error e => .error e
      | .ok (none, trace) => .ok (none, trace)
      | .ok (some (sols, _, _), trace) =>
        match finishDirect o.eigsys (fun L => o.order (eqlatcor GA GM L)) EA EM CA CM sols with
        | .error e => .error e
        | .ok rs => .ok (some rs, trace)

/-- Lines 46-282, `lat_cor`. -/
noncomputable def latCor (t : Tol) (py : Py) (kw : LatCorKw) (o : Outside (readkw kw.dim 3))
    (brava : ℤ) (pa : PArg) (bravm : ℤ) (pm : PArg) :
    Except Err (Option (List (Report (readkw kw.dim 3))) × List (List ℤ)) :=
  match BLat.new py brava pa (readkw kw.dim 3 : ℕ) with
  | .error e => .error e
  | .ok LA =>
    match BLat.new py bravm pm (readkw kw.dim 3 : ℕ) with
    | .error e => .error e
    | .ok LM =>
      match LA.E, LM.E with
      | some EA, some EM =>
        if hA : LA.N = readkw kw.dim 3 then
          if hM : LM.N = readkw kw.dim 3 then
            latCorCore t o (readkw kw.nsol 1) (readkw kw.volTh 0.1) (readkw kw.sliceSz 100)
              (castSq hA hA EA) (castSq hM hM EM) (castSq hA hA LA.conventionalTrans)
              (castSq hM hM LM.conventionalTrans)
          else .error .valueError
        else .error .valueError
      | _, _ => .ok (none, [])

/-- Lines 326-332 of `_sols_tostr` (called on line 268 with `distName`): the label of the distance of a
solution in the output. -/
def distLabel (dist : String) : String :=
  " - Assigned distance " ++
    (if dist = "Ericksen" then "(Ericksen distance):" else "") ++
    (if dist = "strain" then "(strain):" else "") ++
    (if dist = "Cauchy" then "(Cauchy distance)" else "")

/-- Lines 268 and 325-334: the label and the value of the distance printed for each solution. -/
noncomputable def printedDistances (kw : LatCorKw) {N : ℕ} (rs : List (Report N)) : List (String × ℝ) :=
  rs.map fun r => (distLabel (readkw kw.dist "Cauchy"), r.d)

end Verif.Model
