/-
A model of who shares which array: objects hold references to arrays, accessors either copy or
hand out the reference they hold.  What the arrays contain is of no concern here, so the type `V`
of a matrix is arbitrary, and so are the functions that compute variants and Laue groups from
matrices (they are modelled in `Model/Martensite.lean` and `Model/Lattice.lean`).
-/
import Mathlib.Data.List.Basic
import Mathlib.Logic.Function.Basic
import Verif.Model.Basic

namespace Verif.Heap

/-- A reference to an array: a whole buffer (`item = none`), or the numpy view `A[i]` of it, which shares the
buffer.  Models what `A` and `A[i]` evaluate to in martensite.py:116 and twin.py:63.  Language semantics, no
line of the program. -/
structure Ref where
  addr : ℕ
  item : Option ℕ := none
  deriving DecidableEq, Repr

/-- The buffers.  A buffer is a stack of matrices; a single matrix is a stack of one.  Language semantics, no
line of the program. -/
abbrev Mem (V : Type) := ℕ → List V

variable {V : Type}

/-- What an array reads as. Simplification: reading a view past the end gives the empty stack
(numpy raises `IndexError` when the view is made). -/
def read (h : Mem V) (r : Ref) : List V :=
  match r.item with
  | none => h r.addr
  | some i => ((h r.addr)[i]?).toList

/-- In-place assignment by the client, `A[:] = v` or `A[i][:] = v`.  Client code, no line of the program. -/
def write (h : Mem V) (r : Ref) (v : List V) : Mem V :=
  Function.update h r.addr <|
    match r.item, v with
    | none, v => v
    | some i, x :: _ => (h r.addr).set i x
    | some _, [] => h r.addr

/-- The objects of the library with the attributes that are arrays.
* `lattice` : lattice.py:25-30 (`__E`, `__LaueGroup` through its matrices);
* `bravais` : bravais_lattice.py (`__E` of the superclass, `__latParam`, `__C`);
* `group` : matrix_group.py:77 (`__mats`);
* `mart` : martensite.py:18-21 (`__U`, the matrices of `__Laue`, `__Ulist`);
* `twins` : twin.py:14-34 (`__Ulist`);
* `pair` : twin.py:145-146 (`__Ui`, `__Uj`). -/
inductive Obj where
  | lattice (E : Ref) (laue : Option Ref)
  | bravais (E param C : Ref)
  | group (mats : Ref)
  | mart (U : Option Ref) (laue : Ref) (ulist : Option Ref)
  | twins (ulist : Ref)
  | pair (ui uj : Ref)
  deriving DecidableEq, Repr

/-- Memory, first free address, and the objects in order of construction.  Language semantics, no line of the
program. -/
structure State (V : Type) where
  mem : Mem V
  next : ℕ
  objs : List Obj

/-- Nothing has been built yet.  Not part of the program. -/
def State.init : State V := ⟨fun _ => [], 0, []⟩

/-- What a client can do.  Objects are named by their position in the order of construction.  The lines
modelled are given at `step`. -/
inductive Call (V : Type) where
  /-- `np.array(...)` by the client -/
  | array (v : List V)
  /-- `Lattice(A)` with `A` an ndarray -/
  | lattice (r : Ref)
  /-- `Lattice([[...]])` -/
  | latticeList (v : V)
  /-- `BravaisLattice(id, p)` with `p` an ndarray -/
  | bravais (p : Ref)
  /-- `MatrixGroup(A)` -/
  | group (r : Ref)
  /-- `Martensite(A, G)` -/
  | mart (r : Ref) (g : ℕ)
  /-- `M.setU(A)` -/
  | setU (o : ℕ) (r : Ref)
  /-- `M.setLaue(G)` -/
  | setLaue (o g : ℕ)
  /-- `TwinSystem(M)` -/
  | twins (o : ℕ)
  /-- `TwinSystem(A)` -/
  | twinsOf (r : Ref)
  /-- the pair `TwinPair(Ulist[i], Ulist[j])` made by `TwinTable()` -/
  | pairOf (o i j : ℕ)
  /-- `TwinPair(A, B)` -/
  | pair (r r' : Ref)
  /-- `L.base()` -/
  | base (o : ℕ)
  /-- `L.Laue_group()` -/
  | laueGroup (o : ℕ)
  /-- `G.matrices()` -/
  | matrices (o : ℕ)
  /-- `M.getU()` -/
  | getU (o : ℕ)
  /-- `M.getvariants()` -/
  | getvariants (o : ℕ)
  /-- `M.getvariant(n)` -/
  | getvariant (o n : ℕ)
  /-- `T.Ulist()` -/
  | Ulist (o : ℕ)
  /-- `P.Ui()` -/
  | Ui (o : ℕ)
  /-- `P.Uj()` -/
  | Uj (o : ℕ)
  /-- `B.lat_param()` -/
  | latParam (o : ℕ)
  /-- `B.conventional_trans()` -/
  | convTrans (o : ℕ)
  /-- the client overwrites an array it holds -/
  | write (r : Ref) (v : List V)

/-- What a call returns.  The lines modelled are given at `step`. -/
inductive Res where
  | arr (r : Ref)
  | obj (o : ℕ)
  | none
  | raise (e : Err)
  deriving DecidableEq

/-- The computations whose results are stored: the matrices of the Laue group of a base
(lattice.py:95-106), the variants of `U` under a Laue group (martensite.py:147-168, which raises
for irreversible transformations), and the primitive base and conversion matrix of a Bravais
lattice (bravais_lattice.py:53-219). -/
structure Comp (V : Type) where
  laue : List V → List V
  variants : List V → List V → Except Err (List V)
  prim : List V → List V
  conv : List V → List V

/-- A fresh buffer.  Language semantics, no line of the program. -/
def alloc (s : State V) (v : List V) : State V × Ref :=
  (⟨Function.update s.mem s.next v, s.next + 1, s.objs⟩, ⟨s.next, Option.none⟩)

/-- A copy of an array: `X = np.empty_like(A); X[:] = A`, or `np.array(A)`. -/
def copyOf (s : State V) (r : Ref) : State V × Res :=
  let (s', r') := alloc s (read s.mem r)
  (s', .arr r')

/-- Register a new object.  Language semantics, no line of the program. -/
def push (s : State V) (b : Obj) : State V × Res :=
  ({ s with objs := s.objs ++ [b] }, .obj s.objs.length)

/-- `calcvariants` (martensite.py:140-169) with the `None` test of its callers: compute the variants
unless they are there, and return the reference. -/
def variantsOf (c : Comp V) (s : State V) (o : ℕ) : State V × Except Err Ref :=
  match s.objs[o]? with
  | some (.mart U laue ulist) =>
    match ulist with
    | some r => (s, .ok r)
    | none =>
      match U with
      | none => (s, .error .attributeError)
      | some u =>
        match c.variants (read s.mem u) (read s.mem laue) with
        | .error e => (s, .error e)
        | .ok l =>
          let (s', r) := alloc s l
          ({ s' with objs := s'.objs.set o (.mart (some u) laue (some r)) }, .ok r)
  | _ => (s, .error .attributeError)

/-- One call. A reference is usable only if its buffer exists; the wrong kind of object has no such
attribute. -/
def step (c : Comp V) (s : State V) : Call V → State V × Res
  | .array v => let (s', r) := alloc s v; (s', .arr r)
  -- lattice.py:16-25 : an ndarray is kept, not copied
  | .lattice r => if r.addr < s.next then push s (.lattice r none) else (s, .raise .nameError)
  -- lattice.py:17 : anything else goes through np.array
  | .latticeList v => let (s', r) := alloc s [v]; push s' (.lattice r none)
  -- bravais_lattice.py:18-50 : an ndarray of parameters is kept
  | .bravais p =>
    if p.addr < s.next then
      let (s₁, E) := alloc s (c.prim (read s.mem p))
      let (s₂, C) := alloc s₁ (c.conv (read s.mem p))
      push s₂ (.bravais E p C)
    else (s, .raise .nameError)
  -- matrix_group.py:77
  | .group r => if r.addr < s.next then push s (.group r) else (s, .raise .nameError)
  -- martensite.py:18-21
  | .mart r g =>
    if r.addr < s.next then
      match s.objs[g]? with
      | some (.group m) => push s (.mart (some r) m none)
      | _ => (s, .raise .nameError)
    else (s, .raise .nameError)
  -- martensite.py:28-53 : np.array(args[0]), then a new object. Simplification: the shape, symmetry
  -- and determinant tests are in Model/Martensite.lean
  | .setU o r =>
    if r.addr < s.next then
      match s.objs[o]? with
      | some (.mart _ m _) =>
        let (s', r') := alloc s (read s.mem r)
        push s' (.mart (some r') m none)
      | _ => (s, .raise .attributeError)
    else (s, .raise .nameError)
  -- martensite.py:85-86 : shares `__U` between the two objects
  | .setLaue o g =>
    match s.objs[o]?, s.objs[g]? with
    | some (.mart U _ _), some (.group m) => push s (.mart U m none)
    | _, _ => (s, .raise .valueError)
  -- twin.py:16-17 : the array of the Martensite object, not a copy
  | .twins o =>
    match variantsOf c s o with
    | (s', .ok r) => push s' (.twins r)
    | (s', .error e) => (s', .raise e)
  -- twin.py:20, 27 : np.array
  | .twinsOf r =>
    if r.addr < s.next then
      let (s', r') := alloc s (read s.mem r)
      push s' (.twins r')
    else (s, .raise .nameError)
  -- twin.py:63 : views of the array of variants. Simplification: the list of pairs is not an object
  -- here, each pair is one
  | .pairOf o i j =>
    match s.objs[o]? with
    | some (.twins r) => push s (.pair ⟨r.addr, some i⟩ ⟨r.addr, some j⟩)
    | _ => (s, .raise .attributeError)
  -- twin.py:145-146
  | .pair r r' =>
    if r.addr < s.next ∧ r'.addr < s.next then push s (.pair r r') else (s, .raise .nameError)
  -- lattice.py:37-39
  | .base o =>
    match s.objs[o]? with
    | some (.lattice E _) => copyOf s E
    | some (.bravais E _ _) => copyOf s E
    | _ => (s, .raise .attributeError)
  -- lattice.py:87-107. Simplification: for a plain `Lattice` only, and every call makes a new
  -- `MatrixGroup` object around the one stored array of matrices, which cannot be told apart
  -- because a `MatrixGroup` never changes
  | .laueGroup o =>
    match s.objs[o]? with
    | some (.lattice E none) =>
      let (s', r) := alloc s (c.laue (read s.mem E))
      push { s' with objs := s'.objs.set o (.lattice E (some r)) } (.group r)
    | some (.lattice _ (some r)) => push s (.group r)
    | _ => (s, .raise .attributeError)
  -- matrix_group.py:85. Simplification: the returned list of fresh arrays is one fresh stack
  | .matrices o =>
    match s.objs[o]? with
    | some (.group m) => copyOf s m
    | _ => (s, .raise .attributeError)
  -- martensite.py:60-64
  | .getU o =>
    match s.objs[o]? with
    | some (.mart (some u) _ _) => copyOf s u
    | _ => (s, .raise .attributeError)
  -- martensite.py:103-105 : the stored array
  | .getvariants o =>
    match variantsOf c s o with
    | (s', .ok r) => (s', .arr r)
    | (s', .error e) => (s', .raise e)
  -- martensite.py:114-116 : a view of the stored array. Simplification: n ≥ 1
  | .getvariant o n =>
    match variantsOf c s o with
    | (s', .ok r) => (s', .arr ⟨r.addr, some (n - 1)⟩)
    | (s', .error e) => (s', .raise e)
  -- twin.py:42-44
  | .Ulist o =>
    match s.objs[o]? with
    | some (.twins r) => copyOf s r
    | _ => (s, .raise .attributeError)
  -- twin.py:166-168
  | .Ui o =>
    match s.objs[o]? with
    | some (.pair r _) => copyOf s r
    | _ => (s, .raise .attributeError)
  -- twin.py:175-177
  | .Uj o =>
    match s.objs[o]? with
    | some (.pair _ r) => copyOf s r
    | _ => (s, .raise .attributeError)
  -- bravais_lattice.py:298 : the stored array
  | .latParam o =>
    match s.objs[o]? with
    | some (.bravais _ p _) => (s, .arr p)
    | _ => (s, .raise .attributeError)
  -- bravais_lattice.py:311 : the stored array
  | .convTrans o =>
    match s.objs[o]? with
    | some (.bravais _ _ C) => (s, .arr C)
    | _ => (s, .raise .attributeError)
  | .write r v => ({ s with mem := write s.mem r v }, .none)

/-- A history of calls.  Not part of the program. -/
def run (c : Comp V) : State V → List (Call V) → State V
  | s, [] => s
  | s, a :: l => run c (step c s a).1 l

end Verif.Heap
