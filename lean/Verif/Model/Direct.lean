import Verif.Model.SolList
import Verif.Model.VecGen

/-!
# Model of the search loop of `structrans/marttrans/lat_cor/main_direct.py` lines 189-227

The stream of random trial matrices `L0 + shift` (lines 195-201) is an arbitrary input, `rmax` is the
closure of line 205 and `dist` the distance; both are parameters here (`Verif.Model.Dist`).
-/

namespace Verif.Model

variable {D : Type} [LinearOrder D] {N : ℕ}

/-- `main_direct.py` lines 194-203: the initialisation.  `samples` is a finite piece of the stream of
random trial matrices, `volOk` the test `1 - vol_th < det < 1 + vol_th`, the counter is the number of
solutions still to be added.  The result is `none` if the samples are used up before (the program then
goes on drawing).  The last component is `DMAX`, with `none` for the initial `float('inf')`. -/
def initLoop {α : Type} [DecidableEq α] (eq : α → Finset α) (adm volOk : α → Prop) [DecidablePred adm]
    [DecidablePred volOk] (nsol : ℕ) (dist : α → D) :
    List α → ℕ → List (Sol α D) × Finset α × Option D →
      Except Err (Option (List (Sol α D) × Finset α × Option D))
  | _, 0, st => .ok (some st)
  | [], _ + 1, _ => .ok none
  | l :: samples, k + 1, (sols, ext, dmax) =>
    if l ∈ ext ∨ ¬ volOk l then initLoop eq adm volOk nsol dist samples (k + 1) (sols, ext, dmax)
    else
      match addSol eq adm nsol ⟨l, dist l⟩ sols ext with
      | .error e => .error e
      | .ok (sols, ext, d) => initLoop eq adm volOk nsol dist samples k (sols, ext, some d)

/-- `l.reshape(dim, dim)` (row major).  `main_direct.py` lines 132 and 162. -/
def toMat (N : ℕ) (v : List ℤ) : Matrix (Fin N) (Fin N) ℤ :=
  Matrix.of fun i j => v.getD (i.val * N + j.val) 0

/-- `SOLS`, `EXT_SOLS`, `DMAX`.  `main_direct.py` lines 190-192. -/
abbrev SearchState (N : ℕ) (D : Type) :=
  List (Sol (Matrix (Fin N) (Fin N) ℤ) D) × Finset (Matrix (Fin N) (Fin N) ℤ) × D

/-- `main_direct.py` lines 219-227: consume the generator `g` slice by slice until a slice improves
`DMAX`.  Returns the new checkpoint (`next(g)`) in that case and `none` if the generator is exhausted.
`fuel` is the number of remaining vectors plus one; each slice is non-empty. -/
def sliceLoop (GA GM : List (Matrix (Fin N) (Fin N) ℤ)) (nsol : ℕ)
    (dist : Matrix (Fin N) (Fin N) ℤ → D) (sliceSz : ℕ) :
    ℕ → List (List ℤ) → SearchState N D → Except Err (Option (List ℤ) × SearchState N D)
  | 0, _, st => .ok (none, st)
  | fuel + 1, g, (sols, ext, dmax) =>
    if (g.take sliceSz).length > 0 then
      match updateSol (eqlatcor GA GM) (fun L => L.det ≠ 0) nsol dist
          ((g.take sliceSz).map (toMat N)) sols ext dmax with
      | .error e => .error e
      | .ok (updated, st) =>
        if updated then
          match g.drop sliceSz with
          | [] => .error .stopIteration
          | checkpoint :: _ => .ok (some checkpoint, st)
        else sliceLoop GA GM nsol dist sliceSz fuel (g.drop sliceSz) st
    else .ok (none, (sols, ext, dmax))

/-- `main_direct.py` lines 207-227: the outer `while updated` loop.  The result is `none` when the fuel
does not suffice (see `C38_terminates`); the second component records the checkpoints the generator was
started from (not part of the program). -/
noncomputable def searchLoop (GA GM : List (Matrix (Fin N) (Fin N) ℤ)) (nsol : ℕ)
    (dist : Matrix (Fin N) (Fin N) ℤ → D) (sliceSz : ℕ) (rmax : D → ℝ) :
    ℕ → List ℤ → SearchState N D → Except Err (Option (SearchState N D) × List (List ℤ))
  | 0, _, _ => .ok (none, [])
  | fuel + 1, checkpoint, st =>
    let g := vecGen (N ^ 2) (rmax st.2.2) (some checkpoint)
    match sliceLoop GA GM nsol dist sliceSz (g.length + 1) g st with
    | .error e => .error e
    | .ok (none, st') => .ok (some st', [checkpoint])
    | .ok (some checkpoint', st') =>
      match searchLoop GA GM nsol dist sliceSz rmax fuel checkpoint' st' with
      | .error e => .error e
      | .ok (r, trace) => .ok (r, checkpoint :: trace)

/-- `main_direct.py` lines 189-227: initialisation with `20 * nsol` trial solutions, then the search.
The result is `none` if the samples or the fuel do not suffice, or if `nsol = 0` (then the radius is
`rmax(inf)` and the generator never ends). -/
noncomputable def directSearch (GA GM : List (Matrix (Fin N) (Fin N) ℤ)) (nsol : ℕ)
    (dist : Matrix (Fin N) (Fin N) ℤ → D) (sliceSz : ℕ) (rmax : D → ℝ)
    (volOk : Matrix (Fin N) (Fin N) ℤ → Prop) [DecidablePred volOk]
    (samples : List (Matrix (Fin N) (Fin N) ℤ)) (fuel : ℕ) :
    Except Err (Option (SearchState N D) × List (List ℤ)) :=
  match initLoop (eqlatcor GA GM) (fun L => L.det ≠ 0) volOk nsol dist samples (20 * nsol)
      ([], ∅, none) with
  | .error e => .error e
  | .ok (some (sols, ext, some dmax)) =>
    searchLoop GA GM nsol dist sliceSz rmax fuel (List.replicate (N ^ 2) 0) (sols, ext, dmax)
  | .ok _ => .ok (none, [])

end Verif.Model
