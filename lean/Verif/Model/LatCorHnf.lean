import Verif.Model.Bravais
import Verif.Model.LatCor
import Verif.Model.LatOpt
import Verif.Model.MainHnf
import Verif.Model.Par
import Verif.Model.Report

/-!
# Model of `lat_cor`, `structrans/marttrans/lat_cor/main_hnf.py` lines 37-322, as a whole

This is the function exported as `lat_cor_hnf`.  The parts have their own models: the lattices
(`Verif.Model.Bravais`, `Verif.Model.Lattice`), the sublattices (`Verif.Model.MainHnf`), the search in one
sublattice (`Verif.Model.LatOpt`), the merging of results (`Verif.Model.SolList`), the polling of a process
pool (`Verif.Model.Par`) and the entries of the solutions (`Verif.Model.Report`).  Only `dim = 3` is modelled
(the search in one sublattice raises otherwise).  Printing and logging are left out.  A lattice with a
non-finite base is not followed any further.  The parameter `F` bounds the number of rounds of every loop,
here the polls of the process pool, and those of `lat_opt`; `Run.out` stands for a run that needs more.
`E_Mr` is `E_M` and `chi` the identity (lines 113-114), whose product with `l` (line 278) is left out.
-/

namespace Verif.Model

open Matrix

/-- The keyword arguments that have an effect on the result (lines 74-78 and 182-185); `none` stands for an
argument that is not given. -/
structure HnfKw where
  nsol : Option ℕ := none
  volTh : Option ℝ := none
  dist : Option String := none
  maxiter : Option ℕ := none
  miniter : Option ℕ := none

/-- How `lat_opt` is run: one call after the other, or by the function `lat_opt_par` with a pool of the given
size, where `ready h k` tells whether the result for the sublattice `h` is there at poll number `k`.  Lines
234-247 and 268-273. -/
inductive HnfPool
  | serial
  | pool (size : ℕ) (ready : Z3 → ℕ → Bool)

/-- What `lat_cor` takes from outside: `la.eig` as used in the strain distance and in line 284. -/
structure HnfOutside where
  eig : Matrix (Fin 3) (Fin 3) ℝ → Fin 3 → ℝ
  eigsys : Matrix (Fin 3) (Fin 3) ℝ → (Fin 3 → ℝ) × Matrix (Fin 3) (Fin 3) ℝ

/-- Lines 175-185: the options for `lat_opt`. -/
def hnfOptions (kw : HnfKw) (LGM : List Z3) : OptKw where
  nsol := some (readkw kw.nsol 1)
  maxiter := kw.maxiter
  miniter := kw.miniter
  dist := some (readkw kw.dist "Cauchy")
  solg2 := some LGM

/-- Lines 272-273 (and 253-255): the results for the sublattice `h` as solution dictionaries; the product
`ltot` of line 196 takes the place of the entries `h` and `l`. -/
noncomputable def searchOne (t : Tol) (o : HnfOutside) (F : ℕ) (EA EM : Matrix (Fin 3) (Fin 3) ℝ) (opts : OptKw)
    (h : Z3) : Run (List (Sol Z3 ℝ)) :=
  (latOpt t o.eig F (EA * intMat ℝ h) EM opts).bind fun r =>
    .ok ((r.1.zip r.2).map fun p => ⟨h * p.1, p.2⟩)

/-- Lines 270-273 (and 250-262): the search in one sublattice after the other, in the given order, and the
merging of the results. -/
noncomputable def searchAll (t : Tol) (o : HnfOutside) (F : ℕ) (EA EM : Matrix (Fin 3) (Fin 3) ℝ) (opts : OptKw)
    (LGA LGM : List Z3) (nsol : ℕ) : List Z3 → List (Sol Z3 ℝ) × Finset Z3 → Run (List (Sol Z3 ℝ) × Finset Z3)
  | [], st => .ok st
  | h :: hs, st =>
    (searchOne t o F EA EM opts h).bind fun new =>
      searchAll t o F EA EM opts LGA LGM nsol hs (hnfMerge (eqlatcor LGA LGM) nsol st new)

/-- Lines 234-273: the order in which the results are merged; `none` if `F` polls are not enough. -/
def mergeOrder (F : ℕ) (hnfs : List Z3) : HnfPool → Option (List Z3)
  | .serial => some hnfs
  | .pool size ready =>
    let st := pollRun size ready hnfs F
    if st.queue.length = 0 then some st.merged else none

/-- A Python exception or a value as the result of a run.  Not part of the program. -/
def Run.ofExcept {α : Type} : Except Err α → Run α
  | .ok a => .ok a
  | .error e => .err e

/-- Lines 119-289, from the bases `E_A`, `E_M` and the centring matrices `C_A`, `C_M` on.  Lines 148-164 with
the keyword `reduce_hnfs_par` have their own model, `reduceStepPar`; here the sublattices are reduced in one
piece (line 166). -/
noncomputable def latCorHnfCore (t : Tol) (py : Py) (o : HnfOutside) (kw : HnfKw) (pool : HnfPool) (F : ℕ)
    (EA EM CA CM : Matrix (Fin 3) (Fin 3) ℝ) : Run (List (Report 3)) :=
  (Run.ofExcept (Lat.specialLatticeGroup t ⟨3, EA⟩)).bind fun LGA =>
    (Run.ofExcept (Lat.specialLatticeGroup t ⟨3, EM⟩)).bind fun LGM =>
      let r := EM.det / EA.det
      (Run.ofExcept (allHnfs 3 (sizes (readkw kw.volTh 0.1) r))).bind fun all =>
        (Run.ofExcept (reduceHnfs py all LGA)).bind fun hnfs =>
          match mergeOrder F hnfs pool with
          | none => .out
          | some order =>
            (searchAll t o F EA EM (hnfOptions kw LGM) LGA LGM (readkw kw.nsol 1) order ([], ∅)).bind fun st =>
              Run.ofExcept (mapExcept (report o.eigsys EA EM CA CM) st.1)

/-- Lines 37-322, `lat_cor`. -/
noncomputable def latCorHnf (t : Tol) (py : Py) (o : HnfOutside) (kw : HnfKw) (pool : HnfPool) (F : ℕ)
    (brava : ℤ) (pa : PArg) (bravm : ℤ) (pm : PArg) : Run (List (Report 3)) :=
  (Run.ofExcept (BLat.new py brava pa 3)).bind fun LA =>
    (Run.ofExcept (BLat.new py bravm pm 3)).bind fun LM =>
      match LA.E, LM.E with
      | some EA, some EM =>
        if hA : LA.N = 3 then
          if hM : LM.N = 3 then
            latCorHnfCore t py o kw pool F (castSq hA hA EA) (castSq hM hM EM)
              (castSq hA hA LA.conventionalTrans) (castSq hM hM LM.conventionalTrans)
          else .err .valueError
        else .err .valueError
      | _, _ => .out

end Verif.Model
