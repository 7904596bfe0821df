import Verif.Model.Direct

/-!
# Model of the search loop of `structrans/marttrans/lat_cor/main_direct_para.py` (lines 174-223)

The file is a script for Python 2 (line 191 is a `print` statement).  Its functions `add_sol` and
`update_sol` (lines 124-153) are word for word those of `main_direct.py`, so `Verif.Model.SolList` models
them; the initialisation (lines 156-170) is the one of `main_direct.py` with another number of trial
solutions.  The workers of the pool are independent of each other and `get` is called in the order in
which the tasks were submitted (lines 211-217), so the schedule does not matter and the tasks are
evaluated in order.  Messages, the timer and the counters for them are not modelled.
-/

namespace Verif.Model

variable {D : Type} [LinearOrder D] {N : ℕ}

/-- `np.min` of an array; `none` for an empty one, where numpy raises `ValueError`.  `main_direct_para.py`
line 182. -/
def npMin : List D → Option D
  | [] => none
  | d :: ds => some (ds.foldl min d)

/-- `main_direct_para.py` lines 179-192, `calc_dist(ary, dmax, ...)`: the candidates of one slice at the
smallest distance of the slice, if that is within `dmax`. -/
def calcDist {α : Type} (dist : α → D) (dmax : D) (ary : List α) : Except Err (Option (List α)) :=
  match npMin (ary.map dist) with
  | none => .error .valueError
  | some dsmin => .ok (if dsmin ≤ dmax then some (ary.filter fun x => decide (dist x ≤ dsmin)) else none)

/-- `main_direct_para.py` lines 201-204: the `k = ncpu * batch` slices taken from the generator. -/
def paraSlices {α : Type} (sz : ℕ) : ℕ → List α → List (List α)
  | 0, _ => []
  | k + 1, g => g.take sz :: paraSlices sz k (g.drop sz)

/-- `main_direct_para.py` lines 210-217: collect the results; `none` is the Python value `None`. -/
def gather {α : Type} (dist : α → D) (dmax : D) : List (List α) → Option (List α) →
    Except Err (Option (List α))
  | [], cands => .ok cands
  | ary :: rest, cands =>
    match calcDist dist dmax ary with
    | .error e => .error e
    | .ok none => gather dist dmax rest cands
    | .ok (some new) => gather dist dmax rest (some (cands.getD [] ++ new))

/-- `main_direct_para.py` lines 210-222: what happens to one batch of slices. -/
def paraRound (GA GM : List (Matrix (Fin N) (Fin N) ℤ)) (nsol : ℕ)
    (dist : Matrix (Fin N) (Fin N) ℤ → D) (slices : List (List (Matrix (Fin N) (Fin N) ℤ)))
    (st : SearchState N D) : Except Err (SearchState N D) :=
  match gather dist st.2.2 slices none with
  | .error e => .error e
  | .ok none => .ok st
  | .ok (some cands) =>
    match updateSol (eqlatcor GA GM) (fun L => L.det ≠ 0) nsol dist cands st.1 st.2.1 st.2.2 with
    | .error e => .error e
    | .ok (_, st') => .ok st'

/-- `main_direct_para.py` lines 196-223: the `while True` loop.  The result is `none` when the fuel does
not suffice; the second component records the vectors of the batches that were evaluated (not part of
the program). -/
noncomputable def paraLoop (GA GM : List (Matrix (Fin N) (Fin N) ℤ)) (nsol : ℕ)
    (dist : Matrix (Fin N) (Fin N) ℤ → D) (sz k : ℕ) (rmax : D → ℝ) :
    ℕ → List ℤ → SearchState N D → Except Err (Option (SearchState N D) × List (List ℤ))
  | 0, _, _ => .ok (none, [])
  | fuel + 1, checkpoint, st =>
    let g := vecGen (N ^ 2) (rmax st.2.2) (some checkpoint)
    match g.drop (k * sz) with
    | [] => .ok (some st, [])
    | checkpoint' :: _ =>
      match paraRound GA GM nsol dist ((paraSlices sz k g).map fun s => s.map (toMat N)) st with
      | .error e => .error e
      | .ok st' =>
        match paraLoop GA GM nsol dist sz k rmax fuel checkpoint' st' with
        | .error e => .error e
        | .ok (r, trace) => .ok (r, g.take (k * sz) ++ trace)

end Verif.Model
