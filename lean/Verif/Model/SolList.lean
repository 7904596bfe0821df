import Mathlib.Data.Finset.Union
import Mathlib.Data.Finset.Image
import Mathlib.LinearAlgebra.Matrix.Determinant.Basic
import Verif.Model.Basic

/-!
# Model of the solution lists of the three searches

* `structrans/marttrans/lat_cor/main_direct.py` lines 131-133, 157-187 (direct search),
* `structrans/marttrans/lat_cor/main_hnf.py` lines 187-231 (merging of per-sublattice results),
* `structrans/marttrans/lat_cor/lat_opt.py` lines 132-168 (search in one sublattice).

Candidates have an arbitrary type `α` (integer arrays in the code) and distances an arbitrary linear
order `D` (floats in the code).  The closures used by the Python functions (`eqlatcor`, `nsol`, the
determinant test, the groups) are parameters here; `eqlatcor` below is the one of the code.
-/

namespace Verif.Model

/-- A solution dictionary `{'l': ..., 'd': ...}`.  In `main_hnf.py` the entry `l` stands for the
product `h.l` (`ltot`, line 196), the only combination of `h` and `l` the list operations use. -/
structure Sol (α D : Type) where
  l : α
  d : D
  deriving Repr

/-- Decidable equality (not part of the program; the derived instance does not reduce well). -/
instance {α D : Type} [DecidableEq α] [DecidableEq D] : DecidableEq (Sol α D) := fun a b =>
  decidable_of_iff (a.l = b.l ∧ a.d = b.d) (by cases a; cases b; simp)

/-- Python list indexing with negative indices; `none` models `IndexError`.  `main_direct.py` lines 166 and
170, `main_hnf.py` lines 213 and 228. -/
def pyGet? {σ : Type} (l : List σ) (i : ℤ) : Option σ :=
  if 0 ≤ i then l[i.toNat]? else if 0 ≤ l.length + i then l[(l.length + i).toNat]? else none

/-- `main_direct.py` lines 131-133, `eqlatcor` (also the generators of `main_hnf.py` line 190 and
`lat_opt.py` line 135): the set of all `M1 L M2`. -/
def eqlatcor {n : ℕ} (LGA LGM : List (Matrix (Fin n) (Fin n) ℤ)) (L : Matrix (Fin n) (Fin n) ℤ) :
    Finset (Matrix (Fin n) (Fin n) ℤ) :=
  (LGA.flatMap fun M1 => LGM.map fun M2 => M1 * L * M2).toFinset

variable {α D : Type} [DecidableEq α] [LinearOrder D]

/-! ### `main_direct.py` -/

/-- `np.searchsorted(ds, x)` on a sorted array: the number of leading entries smaller than `x`.
`main_direct.py` line 161. -/
def searchsorted (ds : List D) (x : D) : ℕ := (ds.takeWhile (fun y => decide (y < x))).length

/-- `main_direct.py` lines 166-169: the `while` loop that pops solutions worse than the `nsol`-th
and removes their classes from `ext_sols`.  `fuel` is the length of the list, which is enough since
every iteration shortens it. -/
def popLoop (eq : α → Finset α) (nsol : ℕ) : ℕ → List (Sol α D) → Finset α →
    List (Sol α D) × Finset α
  | 0, sols, ext => (sols, ext)
  | fuel + 1, sols, ext =>
    match pyGet? sols (-1), pyGet? sols ((nsol : ℤ) - 1) with
    | some last, some ref =>
      if ref.d < last.d then popLoop eq nsol fuel sols.dropLast (ext \ eq last.l) else (sols, ext)
    | _, _ => (sols, ext)

/-- `main_direct.py` lines 157-170, `add_sol`.  `adm` is the test `la.det(...) != 0`. -/
def addSol (eq : α → Finset α) (adm : α → Prop) [DecidablePred adm] (nsol : ℕ) (sol : Sol α D)
    (sols : List (Sol α D)) (ext : Finset α) : Except Err (List (Sol α D) × Finset α × D) :=
  let st :=
    if sol.l ∈ ext then (sols, ext)
    else
      let idx := searchsorted (sols.map Sol.d) sol.d
      let sols := if adm sol.l then sols.insertIdx idx sol else sols
      let ext := ext ∪ eq sol.l
      if nsol < sols.length then popLoop eq nsol sols.length sols ext else (sols, ext)
  match pyGet? st.1 (-1) with
  | none => .error .indexError
  | some s => .ok (st.1, st.2, s.d)

/-- Offer a sequence of candidates to `add_sol`, as the initialisation loop of `main_direct.py` lines
194-203 does.  (`none` as `dmax` is `float('inf')` before the first call.) -/
def addSols (eq : α → Finset α) (adm : α → Prop) [DecidablePred adm] (nsol : ℕ) (dist : α → D) :
    List α → List (Sol α D) × Finset α → Except Err (List (Sol α D) × Finset α)
  | [], st => .ok st
  | c :: cs, st =>
    match addSol eq adm nsol ⟨c, dist c⟩ st.1 st.2 with
    | .error e => .error e
    | .ok (sols, ext, _) => addSols eq adm nsol dist cs (sols, ext)

/-- `np.argmin` : the position of the first minimum.  `main_direct.py` line 176. -/
def argmin : List D → ℕ
  | [] => 0
  | [_] => 0
  | d :: d' :: ds => if (d' :: ds).all (fun x => decide (d ≤ x)) then 0 else argmin (d' :: ds) + 1

/-- `main_direct.py` lines 175-184: the `while` loop of `update_sol`; `fuel` is the number of
remaining candidates, which drops by one per iteration. -/
def updateLoop (eq : α → Finset α) (adm : α → Prop) [DecidablePred adm] (nsol : ℕ) :
    ℕ → List α → List D → List (Sol α D) → Finset α → D →
      Except Err (List (Sol α D) × Finset α × D)
  | 0, _, _, sols, ext, dmax => .ok (sols, ext, dmax)
  | fuel + 1, ls, ds, sols, ext, dmax =>
    match ds[argmin ds]?, ls[argmin ds]? with
    | some dmin, some lmin =>
      if dmin ≤ dmax then
        match addSol eq adm nsol ⟨lmin, dmin⟩ sols ext with
        | .error e => .error e
        | .ok (sols, ext, dmax') =>
          updateLoop eq adm nsol fuel (ls.eraseIdx (argmin ds)) (ds.eraseIdx (argmin ds)) sols ext dmax'
      else .ok (sols, ext, dmax)
    | _, _ => .ok (sols, ext, dmax)

/-- `main_direct.py` lines 172-186, `update_sol`: returns `(updated, sols, ext_sols, dmax)`. -/
def updateSol (eq : α → Finset α) (adm : α → Prop) [DecidablePred adm] (nsol : ℕ) (dist : α → D)
    (ls : List α) (sols : List (Sol α D)) (ext : Finset α) (dmax : D) :
    Except Err (Bool × List (Sol α D) × Finset α × D) :=
  match updateLoop eq adm nsol ls.length ls (ls.map dist) sols ext dmax with
  | .error e => .error e
  | .ok (sols, ext, dmax') => .ok (decide (dmax' < dmax), sols, ext, dmax')

/-- `main_direct.py` lines 213-226: `update_sol` on one slice of candidates after the other.  (Where
the slices come from is modelled in `Verif.Model.VecGen` and `Verif.Model.Direct`.) -/
def updateSols (eq : α → Finset α) (adm : α → Prop) [DecidablePred adm] (nsol : ℕ) (dist : α → D) :
    List (List α) → List (Sol α D) × Finset α × D → Except Err (List (Sol α D) × Finset α × D)
  | [], st => .ok st
  | ls :: batches, (sols, ext, dmax) =>
    match updateSol eq adm nsol dist ls sols ext dmax with
    | .error e => .error e
    | .ok (_, st) => updateSols eq adm nsol dist batches st

/-! ### `main_hnf.py` -/

/-- `main_hnf.py` lines 199-204: position of the first solution not better than `d`. -/
def hnfPos (sols : List (Sol α D)) (d : D) : ℕ :=
  (sols.findIdx? (fun s => decide (d ≤ s.d))).getD sols.length

/-- `main_hnf.py` lines 208-219, `truncate_sols`. -/
def hnfTruncate (nsol : ℕ) (sols : List (Sol α D)) : List (Sol α D) :=
  if nsol < sols.length then
    match pyGet? sols ((nsol : ℤ) - 1) with
    | none => sols
    | some ref =>
      let t := ((sols.reverse.take (sols.length - nsol)).takeWhile
        (fun s => decide (ref.d < s.d))).length
      sols.take (sols.length - t)
  else sols

/-- `main_hnf.py` lines 194-206, `add_sol`, together with `ext_sols` (lines 188-192).  The keys of
the dictionary `EXT_SOLS2` are the byte strings of integer arrays of one shape and type, hence
represented by the arrays themselves. -/
def hnfAddSol (eq : α → Finset α) (nsol : ℕ) (sols : List (Sol α D)) (ext : Finset α)
    (s : Sol α D) : List (Sol α D) × Finset α :=
  if s.l ∈ ext then (sols, ext)
  else (hnfTruncate nsol (sols.insertIdx (hnfPos sols s.d) s), ext ∪ eq s.l)

/-- `main_hnf.py` lines 223-225: the loop of `merge_sols` for an empty solution list. -/
def hnfMergeAll (eq : α → Finset α) (nsol : ℕ) : List (Sol α D) → List (Sol α D) → Finset α →
    List (Sol α D) × Finset α
  | [], sols, ext => (sols, ext)
  | s :: new, sols, ext =>
    let st := hnfAddSol eq nsol sols ext s
    hnfMergeAll eq nsol new st.1 st.2

/-- `main_hnf.py` lines 227-231: the loop of `merge_sols` for a non-empty solution list, with its
early return. -/
def hnfMergeMore (eq : α → Finset α) (nsol : ℕ) : List (Sol α D) → List (Sol α D) → Finset α →
    List (Sol α D) × Finset α
  | [], sols, ext => (sols, ext)
  | s :: new, sols, ext =>
    match pyGet? sols (-1) with
    | none => (sols, ext)
    | some last =>
      if s.d ≤ last.d then
        let st := hnfAddSol eq nsol sols ext s
        hnfMergeMore eq nsol new st.1 st.2
      else (sols, ext)

/-- `main_hnf.py` lines 221-231, `merge_sols`. -/
def hnfMerge (eq : α → Finset α) (nsol : ℕ) (st : List (Sol α D) × Finset α)
    (new : List (Sol α D)) : List (Sol α D) × Finset α :=
  if st.1.length = 0 then hnfMergeAll eq nsol new st.1 st.2
  else hnfMergeMore eq nsol new st.1 st.2

/-! ### `lat_opt.py` -/

/-- The variables `dopt`, `lopt` and `EXT_SOLS` of `lat_opt.py` (lines 119-132). -/
structure OptState (α D : Type) where
  dopt : List D
  lopt : List α
  ext : Finset α

/-- `lat_opt.py` lines 138-143, `truncate_sols`; `fuel` is the length of the list. -/
def optTruncate (nsol : ℕ) : ℕ → List D → List α → List D × List α
  | 0, dopt, lopt => (dopt, lopt)
  | fuel + 1, dopt, lopt =>
    if nsol < dopt.length then
      match pyGet? dopt (-1), pyGet? dopt ((nsol : ℤ) - 1) with
      | some last, some ref =>
        if ref < last then optTruncate nsol fuel dopt.dropLast lopt.dropLast else (dopt, lopt)
      | _, _ => (dopt, lopt)
    else (dopt, lopt)

/-- `lat_opt.py` lines 146-168, `update_solutions`, with `ext_sols` (lines 134-136). -/
def updateSolutions (eq : α → Finset α) (nsol : ℕ) (dist : α → D) (st : OptState α D) (elem : α) :
    Bool × OptState α D :=
  if 0 < st.dopt.length ∧ elem ∉ st.ext then
    match st.dopt.findIdx? (fun d => decide (dist elem ≤ d)) with
    | some i =>
      let dopt := st.dopt.insertIdx i (dist elem)
      let lopt := st.lopt.insertIdx i elem
      let tr := optTruncate nsol dopt.length dopt lopt
      (true, ⟨tr.1, tr.2, st.ext ∪ eq elem⟩)
    | none =>
      if st.dopt.length < nsol then
        (true, ⟨st.dopt ++ [dist elem], st.lopt ++ [elem], st.ext ∪ eq elem⟩)
      else (false, st)
  else if st.dopt.length = 0 then
    (true, ⟨st.dopt ++ [dist elem], st.lopt ++ [elem], st.ext ∪ eq elem⟩)
  else (false, st)

end Verif.Model
