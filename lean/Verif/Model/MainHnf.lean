import Mathlib.Algebra.Order.Floor.Ring
import Mathlib.Algebra.Order.Archimedean.Real.Basic
import Verif.Model.Hnf

/-!
# Model of the sublattice part of `structrans/marttrans/lat_cor/main_hnf.py` (lines 16-34 and 128-166)

Dictionaries keyed by `h.tostring()` are modelled as lists of the matrices themselves: for integer
arrays of one shape equal bytes mean equal matrices.  The list is kept in insertion order (Python
3.7+); earlier interpreters return the same values in some other order.
-/

namespace Verif.Model

open Matrix

/-- `main_hnf.py` lines 26-31: walk through the orbit generator of line 26 until one normal form is
a key of `rhnfs`; the generator is lazy, so nothing after the first hit is computed. -/
def orbitHit (py : Py) {n : ℕ} (rhnfs : List (Matrix (Fin (n + 1)) (Fin (n + 1)) ℤ))
    (h : Matrix (Fin (n + 1)) (Fin (n + 1)) ℤ) :
    List (Matrix (Fin (n + 1)) (Fin (n + 1)) ℤ) → Except Err Bool
  | [] => .ok false
  | M :: lg =>
    match hnfdH py n (M * h) with
    | .error e => .error e
    | .ok o => if o ∈ rhnfs then .ok true else orbitHit py rhnfs h lg

/-- `main_hnf.py` line 33: `rhnfs[h.tostring()] = h`. -/
def dictSet {α : Type} [DecidableEq α] (d : List α) (h : α) : List α :=
  if h ∈ d then d else d ++ [h]

/-- `main_hnf.py` lines 25-33, the loop of `reduce_hnfs` started from the dictionary `rhnfs`. -/
def reduceLoop (py : Py) {n : ℕ} (lg : List (Matrix (Fin (n + 1)) (Fin (n + 1)) ℤ)) :
    List (Matrix (Fin (n + 1)) (Fin (n + 1)) ℤ) → List (Matrix (Fin (n + 1)) (Fin (n + 1)) ℤ) →
    Except Err (List (Matrix (Fin (n + 1)) (Fin (n + 1)) ℤ))
  | rhnfs, [] => .ok rhnfs
  | rhnfs, h :: hs =>
    match orbitHit py rhnfs h lg with
    | .error e => .error e
    | .ok hit => reduceLoop py lg (if hit then rhnfs else dictSet rhnfs h) hs

/-- `main_hnf.py` lines 16-34, `reduce_hnfs`, called with `(hnfs, lg, lprint)`. -/
def reduceHnfs (py : Py) {n : ℕ} (hnfs lg : List (Matrix (Fin (n + 1)) (Fin (n + 1)) ℤ)) :
    Except Err (List (Matrix (Fin (n + 1)) (Fin (n + 1)) ℤ)) :=
  reduceLoop py lg [] hnfs

/-- The positional reads at the start of `reduce_hnfs` (`main_hnf.py` lines 20-22) on an argument
tuple with `k` items: `args[0]`, `args[1]`, `args[2]`. -/
def reduceArgs (k : ℕ) : Except Err Unit := if k < 3 then .error .indexError else .ok ()

/-- `main_hnf.py` lines 152-154, `divide_work`.  `ngrp = ceil(len(W)/float(size))`; a zero `size`
raises `ZeroDivisionError`.  `W[a:b]` is `(W.drop a).take (b - a)`. -/
def divideWork {α : Type} (W : List α) (size : ℕ) : Except Err (List (List α)) :=
  if size = 0 then .error .zeroDivisionError
  else
    let ngrp := (W.length + size - 1) / size
    .ok ((List.range ngrp).map fun g =>
      (W.drop (g * size)).take (min ((g + 1) * size) W.length - g * size))

/-- `int(math.ceil(len(hnfs)/poolsize))` (`main_hnf.py` line 158): floor division under Python 2
(`main_hnf.py` does not itself import `division`), ceiling of the quotient under Python 3. -/
def chunkSize (py : Py) (len poolsize : ℕ) : ℕ :=
  match py with
  | .py2 => len / poolsize
  | .py3 => (len + poolsize - 1) / poolsize

/-- A `map` over tasks that may raise: the first exception wins.  `main_hnf.py` lines 140 and 160. -/
def mapExcept {α β : Type} (f : α → Except Err β) : List α → Except Err (List β)
  | [] => .ok []
  | a :: as =>
    match f a with
    | .error e => .error e
    | .ok b =>
      match mapExcept f as with
      | .error e => .error e
      | .ok bs => .ok (b :: bs)

/-- `main_hnf.py` lines 148-166, the reduction step of `lat_cor` with the keyword `reduce_hnfs_par`
given.  `par` is the user's worker (applied to one chunk; it has to add the third argument itself, see
`reduceArgs`), `poolsize` is `cpu_count()`. -/
def reduceStepPar (py : Py) {n : ℕ} (poolsize : ℕ)
    (par : List (Matrix (Fin (n + 1)) (Fin (n + 1)) ℤ) →
      Except Err (List (Matrix (Fin (n + 1)) (Fin (n + 1)) ℤ)))
    (hnfs lg : List (Matrix (Fin (n + 1)) (Fin (n + 1)) ℤ)) :
    Except Err (List (Matrix (Fin (n + 1)) (Fin (n + 1)) ℤ)) :=
  if poolsize * 20 < hnfs.length then
    match divideWork hnfs (chunkSize py hnfs.length poolsize) with
    | .error e => .error e
    | .ok sub =>
      match mapExcept par sub with
      | .error e => .error e
      | .ok red => reduceHnfs py red.flatten lg
  else reduceHnfs py hnfs lg

/-- `np.round` / `np.rint` on a real number: nearest integer, ties to even.  `main_hnf.py` line 138. -/
noncomputable def roundEven (x : ℝ) : ℤ :=
  if Int.fract x = 1 / 2 then (if ⌊x⌋ % 2 = 0 then ⌊x⌋ else ⌊x⌋ + 1) else round x

/-- `np.arange(a, b, dtype='int')` on integers.  `main_hnf.py` lines 133-136. -/
def arange (a b : ℤ) : List ℤ := (List.range (b - a).toNat).map fun (k : ℕ) => a + k

/-- `main_hnf.py` lines 133-138: the sizes of sublattices.  (On the fallback the code stores a
floating point number; here its integer value.) -/
noncomputable def sizes (volTh r : ℝ) : List ℤ :=
  let vf := arange ⌈(1 - volTh) * r⌉ (⌊(1 + volTh) * r⌋ + 1)
  if vf.length = 0 then [roundEven r] else vf

/-- `main_hnf.py` line 140: all normal forms of all sizes. -/
def allHnfs (N : ℕ) (vf : List ℤ) : Except Err (List (Matrix (Fin N) (Fin N) ℤ)) :=
  match mapExcept (fun i => hnfFromDet i N) vf with
  | .error e => .error e
  | .ok ls => .ok ls.flatten

end Verif.Model
