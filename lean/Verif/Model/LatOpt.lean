import Mathlib.Data.Matrix.Basis
import Verif.Model.SolList
import Verif.Model.Dist
import Verif.Model.LLL

/-!
# Model of the search in one sublattice

* `structrans/marttrans/lat_cor/slnode.py` (nodes of the search tree),
* `structrans/marttrans/lat_cor/dfs.py` (steepest descent with a cache),
* `structrans/marttrans/lat_cor/lat_opt.py` (breadth-first search around local minima).

Everything is three-dimensional (`SLNode.dim = 3`): the array `_T` of transvections is always 3 x 3, so
for a base of another size the first `steepest_des` raises.  Distances are in an ordered ring `K`
(floats in the code).  Log messages, timers and the file handler are not modelled; the globals of
`lat_opt.py` are arguments and results.  Node objects have an identity (`id`), because `children` is a
generator that a second loop over the same object finds used up.
-/

namespace Verif.Model

open Matrix

/-- An element: a 3 x 3 integer array.  `slnode.py` lines 18-29. -/
abbrev Z3 := Matrix (Fin 3) (Fin 3) ℤ

/-! ### `slnode.py` -/

/-- `slnode.py` line 16, `onetotwo`. -/
def onetotwo : Fin 6 → Fin 3 × Fin 3 := ![(0, 1), (0, 2), (1, 0), (1, 2), (2, 0), (2, 1)]

/-- `k % N` with `N = 6`.  `slnode.py` lines 60-61, 71-74 and 85-87. -/
def mod6 (k : Fin 12) : Fin 6 := ⟨k.val % 6, Nat.mod_lt _ (by norm_num)⟩

/-- `slnode.py` lines 9-15, `_T[k]`: first the six sums `1 + e_i e_j`, then the six differences. -/
def transv (k : Fin 12) : Z3 :=
  let p := onetotwo (mod6 k)
  if k.val < 6 then 1 + Matrix.single p.1 p.2 1 else 1 - Matrix.single p.1 p.2 1

/-- `slnode.py` lines 58-61, `gobacktoparent`. -/
def goBackToParent (child : Fin 12) : Option (Fin 12) → Bool
  | none => false
  | some parent => decide (child.val = (parent.val + 6) % 6)

/-- `slnode.py` lines 63-75, `gobacktouncle`. -/
def goBackToUncle (child : Fin 12) : Option (Fin 12) → Option (Fin 12) → Bool
  | some parent, some grandpa =>
    let c := onetotwo (mod6 child)
    let p := onetotwo (mod6 parent)
    let g := onetotwo (mod6 grandpa)
    decide (c.1 = g.1 ∧ g.2 = p.1 ∧ p.2 = c.2)
  | _, _ => false

/-- `slnode.py` lines 77-88, `gobacktosibling`; tuples are compared lexicographically. -/
def goBackToSibling (child : Fin 12) : Option (Fin 12) → Bool
  | none => false
  | some parent =>
    let c := onetotwo (mod6 child)
    let p := onetotwo (mod6 parent)
    decide (p.1 < c.1 ∨ (p.1 = c.1 ∧ p.2 < c.2))

/-- A node (`slnode.py` lines 18-29).  `elem_dist` is `dist elem`; `children` is `childList` below. -/
structure SLNode where
  id : ℕ
  elem : Z3
  parent : Option (Fin 12)
  grandpa : Option (Fin 12)
  deriving DecidableEq

/-- `slnode.py` lines 35-42: the list `nobacktrans`. -/
def gens (parent grandpa : Option (Fin 12)) : List (Fin 12) :=
  (List.finRange 12).filter fun i =>
    !goBackToParent i parent && !goBackToUncle i parent grandpa && !goBackToSibling i parent

/-- `slnode.py` lines 31-43, `generate_children`: what the generator yields. -/
def SLNode.childList (n : SLNode) : List (Fin 12 × Z3) :=
  (gens n.parent n.grandpa).map fun j => (j, n.elem * transv j)

variable {K : Type} [CommRing K] [LinearOrder K]

/-- `slnode.py` lines 90-93, `calc_neighbor_dist`, numbered as by `enumerate` in line 99. -/
def neighbours (dist : Z3 → K) (elem : Z3) : List (Fin 12 × K) :=
  (List.finRange 12).map fun i => (i, dist (elem * transv i))

/-- `slnode.py` lines 99-102: the loop of `steepest_des`; the state is `(nbmin, dmin)`. -/
def steepestLoop (d0 : K) : List (Fin 12 × K) → Option (Fin 12) × K → Option (Fin 12) × K
  | [], acc => acc
  | (i, d) :: rest, acc => steepestLoop d0 rest (if d - d0 < acc.2 then (some i, d - d0) else acc)

/-- `slnode.py` lines 95-103, `steepest_des`: the element of the new node.  (`nbmin` is `None` only
together with `dmin = 1E10`, so line 103 never indexes with `None`.) -/
def steepestDes (dist : Z3 → K) (elem : Z3) : Option Z3 :=
  let r := steepestLoop (dist elem) (neighbours dist elem) (none, 10 ^ 10)
  if r.2 < 0 then r.1.map (fun i => elem * transv i) else none

/-- `slnode.py` lines 105-106, `is_min`. -/
def isMin (dist : Z3 → K) (elem : Z3) : Bool :=
  (neighbours dist elem).all fun p => decide (dist elem ≤ p.2)

/-! ### `dfs.py` -/

/-- Result of a computation that may raise; `out` means that the given number of steps was not enough (a
Python loop that has not ended yet).  Not part of the program. -/
inductive Run (α : Type)
  | ok (a : α)
  | err (e : Err)
  | out

/-- Sequencing.  Not part of the program. -/
def Run.bind {α β : Type} : Run α → (α → Run β) → Run β
  | .ok a, f => f a
  | .err e, _ => .err e
  | .out, _ => .out

/-- What the node objects and the cache of `dfs` hold: the next unused identity, the entry `'counter'`
of the cache (absent in the default cache of `dfs.py` line 7), its other entries, and how many children
each node's generator has yielded. -/
structure Mem where
  next : ℕ
  counter : Option ℕ
  cache : Z3 → Option SLNode
  used : ℕ → ℕ

/-- `dfs.py` lines 26-36: follow `steepest_des`.  Returns the next unused identity, `minnode` and the
elements of `cachenodes`. -/
def descend (dist : Z3 → K) : ℕ → ℕ → SLNode → List Z3 → Run (ℕ × SLNode × List Z3)
  | 0, _, _, _ => .out
  | f + 1, next, node, seen =>
    match steepestDes dist node.elem with
    | none => .ok (next, node, seen)
    | some L => descend dist f (next + 1) ⟨next, L, none, none⟩ (seen ++ [L])

/-- `dfs.py` lines 14-44, `dfs(start, cache)`. -/
def dfs (dist : Z3 → K) (F : ℕ) (m : Mem) (start : SLNode) : Run (SLNode × Mem) :=
  match m.cache start.elem with
  | some n =>
    match m.counter with
    | none => .err .keyError
    | some c => .ok (n, { m with counter := some (c + 1) })
  | none =>
    (descend dist F m.next start [start.elem]).bind fun r =>
      .ok (r.2.1, { m with
        next := r.1
        cache := fun k => if k ∈ r.2.2 then some r.2.1 else m.cache k })

/-! ### `lat_opt.py` -/

/-- The closure variables of the nested functions: `dist`, the class of an element under `LG1` and
`SOLG2` (`ext_sols`, lines 134-136), `nsol`, `miniter` and `maxiter`.  (Negative iteration bounds act
like 0.) -/
structure OptParams (K : Type) where
  dist : Z3 → K
  eq : Z3 → Finset Z3
  nsol : ℕ
  miniter : ℕ
  maxiter : ℕ

/-- The variables of `bfs` that its inner loops change (`lat_opt.py` lines 177-215). -/
structure Sweep (K : Type) where
  explored : Finset Z3
  newRoots : List SLNode
  updated : Bool
  opt : OptState Z3 K
  mem : Mem

/-- `lat_opt.py` line 198: `root.children` yields one more child. -/
def Mem.consume (m : Mem) (id : ℕ) : Mem :=
  { m with used := Function.update m.used id (m.used id + 1) }

/-- `lat_opt.py` lines 206-211: the descent from a new node `t`, made only in the first `miniter` sweeps;
returns the new starting point if there is one. -/
def probe (P : OptParams K) (F : ℕ) (source : SLNode) (depth : ℕ) (m : Mem) (t : SLNode) :
    Run (Option SLNode × Mem) :=
  if depth ≤ P.miniter then
    (dfs P.dist F m t).bind fun r =>
      .ok (if P.dist r.1.elem < P.dist source.elem then some r.1 else none, r.2)
  else .ok (none, m)

/-- `lat_opt.py` lines 198-215: the loop over the remaining children of one root.  A node in the second
component is the new starting point returned by `bfs`. -/
def childLoop (P : OptParams K) (F : ℕ) (source : SLNode) (depth : ℕ) (root : SLNode) :
    List (Fin 12 × Z3) → Sweep K → Run (Sweep K × Option SLNode)
  | [], b => .ok (b, none)
  | (gen, elem) :: rest, b =>
    if elem ∈ b.explored then
      childLoop P F source depth root rest { b with mem := b.mem.consume root.id }
    else
      let t : SLNode := ⟨b.mem.next, elem, some gen, root.parent⟩
      let m := { b.mem.consume root.id with next := b.mem.next + 1 }
      (probe P F source depth m t).bind fun r =>
        match r.1 with
        | some n =>
          .ok (⟨insert elem b.explored, b.newRoots ++ [t], b.updated, b.opt, r.2⟩, some n)
        | none =>
          let u := updateSolutions P.eq P.nsol P.dist b.opt elem
          childLoop P F source depth root rest
            ⟨insert elem b.explored, b.newRoots ++ [t], u.1 || b.updated, u.2, r.2⟩

/-- `lat_opt.py` lines 197-215: the loop over the roots of one sweep. -/
def rootLoop (P : OptParams K) (F : ℕ) (source : SLNode) (depth : ℕ) :
    List SLNode → Sweep K → Run (Sweep K × Option SLNode)
  | [], b => .ok (b, none)
  | root :: rest, b =>
    (childLoop P F source depth root (root.childList.drop (b.mem.used root.id)) b).bind fun r =>
      match r.2 with
      | some n => .ok (r.1, some n)
      | none => rootLoop P F source depth rest r.1

/-- `lat_opt.py` lines 185-224: the `while` loop of `bfs`; `g` bounds the number of sweeps
(`max miniter maxiter` is enough, see `Verif.Lemmas.LatOpt`). -/
def depthLoop (P : OptParams K) (F : ℕ) (source : SLNode) :
    ℕ → ℕ → Bool → Finset Z3 → List SLNode → OptState Z3 K → Mem →
      Run (Option SLNode × OptState Z3 K × Mem)
  | g, depth, updated, explored, roots, opt, mem =>
    if depth < P.miniter ∨ (updated = true ∧ depth < P.maxiter) then
      match g with
      | 0 => .out
      | g + 1 =>
        (rootLoop P F source (depth + 1) roots ⟨explored, [], false, opt, mem⟩).bind fun r =>
          match r.2 with
          | some n => .ok (some n, r.1.opt, r.1.mem)
          | none => depthLoop P F source g (depth + 1) r.1.updated r.1.explored r.1.newRoots
              r.1.opt r.1.mem
    else .ok (none, opt, mem)

/-- `lat_opt.py` lines 170-224, `bfs(source)`. -/
def bfs (P : OptParams K) (F : ℕ) (source : SLNode) (opt : OptState Z3 K) (mem : Mem) :
    Run (Option SLNode × OptState Z3 K × Mem) :=
  depthLoop P F source (max P.miniter P.maxiter) 0 true {source.elem} [source]
    (updateSolutions P.eq P.nsol P.dist opt source.elem).2 mem

/-- `lat_opt.py` lines 230-236: the loop over starting points, at most `f` of them. -/
def optLoop (P : OptParams K) (F : ℕ) : ℕ → SLNode → OptState Z3 K → Mem → Run (OptState Z3 K × Mem)
  | 0, _, _, _ => .out
  | f + 1, start, opt, mem =>
    (dfs P.dist F mem start).bind fun r =>
      (bfs P F r.1 opt r.2).bind fun q =>
        match q.1 with
        | none => .ok q.2
        | some n => optLoop P F f n q.2.1 q.2.2

/-- `lat_opt.py` lines 105, 119-132 and 226-236: the core procedure started from `lo`. -/
def optCore (P : OptParams K) (F : ℕ) (lo : Z3) : Run (OptState Z3 K × Mem) :=
  optLoop P F F ⟨0, lo, none, none⟩ ⟨[], [], ∅⟩ ⟨1, some 0, fun _ => none, fun _ => 0⟩

/-- `lat_opt.py` lines 43-51, `maxiter_by_nsol`. -/
def maxiterByNsol (nsol : ℕ) : ℕ := if nsol < 3 then 3 else if nsol < 10 then 4 else 5

/-- The keyword arguments of `lat_opt` that matter for its result (`lat_opt.py` lines 53-58, 86, 102);
an absent key is `none`. -/
structure OptKw where
  nsol : Option ℕ
  maxiter : Option ℕ
  miniter : Option ℕ
  dist : Option String
  solg2 : Option (List Z3)

/-- `lat_opt.py` lines 85-98: the distance function.  `eig` is the eigenvalue routine of `strain_dist`.
A singular `E2r` makes `la.inv` raise; another name leaves `dist` unbound until line 104. -/
noncomputable def optDist (eig : Matrix (Fin 3) (Fin 3) ℝ → Fin 3 → ℝ)
    (E1 E2r : Matrix (Fin 3) (Fin 3) ℝ) (name : String) : Except Err (Option (Z3 → ℝ)) :=
  if name = "Ericksen" then .ok (some fun x => ericDist x E1 E2r)
  else if name = "strain" then
    open Classical in
    if E2r.det = 0 then .error .linAlgError else .ok (some fun x => strainDist eig x E1 E2r⁻¹)
  else if name = "Cauchy" then
    open Classical in
    if E2r.det = 0 then .error .linAlgError else .ok (some fun x => cauchyDist x E1 E2r⁻¹)
  else .ok none

/-- `lat_opt.py` lines 20-265, `lat_opt(E1, E2r, **kwargs)`, for 3 x 3 floating point arrays.  Returns
`lopt` and `dopt`.  The matrix product of line 83 fails if `LLL` returns a pair. -/
noncomputable def latOpt (t : Tol) (eig : Matrix (Fin 3) (Fin 3) ℝ → Fin 3 → ℝ) (F : ℕ)
    (E1 E2r : Matrix (Fin 3) (Fin 3) ℝ) (kw : OptKw) : Run (List Z3 × List ℝ) :=
  let nsol := kw.nsol.getD 1
  let maxiter := kw.maxiter.getD (maxiterByNsol nsol)
  let miniter := kw.miniter.getD 3
  open Classical in
  if E1.det = 0 then .err .linAlgError
  else
    match lll E1 with
    | .pair _ _ => .err .valueError
    | .base Er1 =>
      let lo := rintMat (E1⁻¹ * Er1)
      match optDist eig E1 E2r (kw.dist.getD "Cauchy") with
      | .error e => .err e
      | .ok d =>
        match Lat.getspeciallatticegroup t ⟨3, E1⟩ with
        | .error e => .err e
        | .ok LG1 =>
          let g2 : Except Err (List Z3) :=
            match kw.solg2 with
            | some g => .ok g
            | none => if E2r.det = 0 then .error .valueError
                else Lat.getspeciallatticegroup t ⟨3, E2r⟩
          match g2 with
          | .error e => .err e
          | .ok SOLG2 =>
            match d with
            | none => .err .unboundLocalError
            | some dist =>
              (optCore ⟨dist, eqlatcor LG1 SOLG2, nsol, miniter, maxiter⟩ F lo).bind fun r =>
                .ok (r.1.lopt, r.1.dopt)

end Verif.Model
