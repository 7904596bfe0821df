import Verif.Model.MatMath
import Verif.Model.Martensite
import Verif.Model.Rank1

/-!
# Model of `structrans/marttrans/twin.py`

Arrays are exact real 3 × 3 matrices.  `eig` is `numpy.linalg.eig`, `t` the tolerances of `np.allclose`,
`rnd` is `np.round(·, 10)` (`rnd10` below).  Arrays containing NaN are `none`.  The caches `__ax`,
`__XI`, `__XII` and `__twinparam` of a `TwinPair` hold functions of fields that no method changes, so they
are not part of the model; `__conventional` depends on an argument and is modelled (`PairObj`).
Aliasing of arrays is not modelled here.
-/

namespace Verif.Model

open Matrix

/-- A `TwinPair` object: `__Ui`, `__Uj` and the sorted eigenvalues and eigenvectors `__e`, `__v`.  `twin.py`
lines 140-159. -/
structure TwinPair where
  Ui : M3
  Uj : M3
  e : EigRes

open Classical in
/-- `twin.py` lines 140-159, `TwinPair.__init__`. -/
noncomputable def TwinPair.new (eig : M3 → EigRes) (Ui Uj : M3) (skipcheck : Bool) : Except Err TwinPair :=
  if skipcheck = false ∧ (¬ posDefSym Ui ∨ ¬ posDefSym Uj) then .error .valueError
  else if Ui.det = 0 then .error .linAlgError
  else .ok ⟨Ui, Uj, sortEig eig ((Ui⁻¹ * Uj) * (Uj * Ui⁻¹))⟩

/-- `twin.py` line 138, `tol`. -/
noncomputable def twinTol : ℝ := 5 / 10 ^ 3

/-- `np.max(np.abs(A - B)) < SMALL`.  `twin.py` lines 185 and 201. -/
def maxClose (A B : M3) : Prop := ∀ i j, |A i j - B i j| < small

open Classical in
/-- `twin.py` lines 179-188, `istwinnable`. -/
noncomputable def TwinPair.isTwinnable (p : TwinPair) : Bool :=
  if maxClose p.Ui p.Uj then false else decide (|p.e.vals 1 - 1| < twinTol)

open Classical in
/-- `twin.py` lines 225-229: the pass of the loop for the sign `s`: an axis, or nothing.  `math.sqrt` of a
negative number raises `ValueError`; dividing by a vanishing norm gives NaN. -/
noncomputable def TwinPair.axis (p : TwinPair) (s : ℝ) : Except Err (List (Option V3)) :=
  let As := p.Ui * p.Ui
  let A11 := p.e.vecs 0 ⬝ᵥ As *ᵥ p.e.vecs 0
  let A23 := p.e.vecs 1 ⬝ᵥ As *ᵥ p.e.vecs 2
  let A13 := p.e.vecs 2 ⬝ᵥ As *ᵥ p.e.vecs 0
  let A21 := p.e.vecs 1 ⬝ᵥ As *ᵥ p.e.vecs 0
  if p.e.vals 2 < 0 then .error .valueError
  else if |s * Real.sqrt (p.e.vals 2) * A23 + A21| < small then
    if 2 * (A11 + s * Real.sqrt (p.e.vals 2) * A13) < 0 then .error .valueError
    else
      let del1 := Real.sqrt (2 * (A11 + s * Real.sqrt (p.e.vals 2) * A13))
      let del3 := s * Real.sqrt (p.e.vals 2) * del1
      .ok [unitVec (del1 • p.Ui *ᵥ p.e.vecs 0 + del3 • p.Ui *ᵥ p.e.vecs 2)]
  else .ok []

/-- `twin.py` lines 207-231, `ax`. -/
noncomputable def TwinPair.ax (p : TwinPair) : Except Err (List (Option V3)) :=
  if p.isTwinnable = false then .error .attributeError
  else
    match p.axis (-1) with
    | .error e => .error e
    | .ok l =>
      match p.axis 1 with
      | .error e => .error e
      | .ok l' => .ok (l ++ l')

/-- `twin.py` lines 234-239, `iscompound`. -/
noncomputable def TwinPair.isCompound (p : TwinPair) : Except Err Bool :=
  match p.ax with
  | .error e => .error e
  | .ok l => .ok (decide (1 < l.length))

/-- `twin.py` lines 241-253, `istypeI` and `istypeII`. -/
noncomputable def TwinPair.isTypeI (p : TwinPair) : Except Err Bool :=
  match p.isCompound with
  | .error e => .error e
  | .ok b => .ok (!b)

/-- `self.ax()[0]` for a pair that is not compound.  `twin.py` lines 263, 275 and 304. -/
noncomputable def TwinPair.firstAx (p : TwinPair) : Except Err (Option V3) :=
  match p.ax with
  | .error e => .error e
  | .ok [] => .error .indexError
  | .ok (v :: _) => .ok v

/-- `twin.py` lines 255-265, `XI`; `none` is NaN. -/
noncomputable def TwinPair.xI (p : TwinPair) : Except Err (Option ℝ) :=
  match p.isCompound with
  | .error e => .error e
  | .ok true => .error .attributeError
  | .ok false =>
    match p.firstAx with
    | .error e => .error e
    | .ok v => .ok (v.map fun e => vnorm (p.Ui⁻¹ *ᵥ e))

/-- `twin.py` lines 267-277, `XII`; `none` is NaN. -/
noncomputable def TwinPair.xII (p : TwinPair) : Except Err (Option ℝ) :=
  match p.isCompound with
  | .error e => .error e
  | .ok true => .error .attributeError
  | .ok false =>
    match p.firstAx with
    | .error e => .error e
    | .ok v => .ok (v.map fun e => vnorm (p.Ui *ᵥ e))

open Classical in
/-- `twin.py` lines 508-519, `_isvariant`; `none` is an array of NaN, for which line 514 is never true. -/
noncomputable def isVariant (t : Tol) (U : M3) (V : Option M3) : Except Err Bool :=
  match Mart.getVariants t ⟨some U, cubicR⟩ with
  | .error e => .error e
  | .ok us =>
    match V with
    | none => .ok false
    | some V => .ok (us.any fun u => decide (fnorm (V - u) < small))

/-- `-np.eye(3) + 2*np.outer(ehat, ehat)`, `twin.py` line 402. -/
def r180 (e : V3) : M3 := -1 + (2 : ℝ) • outer e e

/-- `np.round(·, 10)`: scaled by 1e10, rounded to the nearest integer with ties to even, scaled back.
`twin.py` lines 409-410 and 416-417. -/
noncomputable def rnd10 (x : ℝ) : ℝ := (roundEven (x * 10 ^ 10) : ℝ) / 10 ^ 10

/-- A solution `(Q, a, n)` of the twinning equation.  `twin.py` line 431. -/
abbrev TwinSol := M3 × V3 × V3

/-- What `_solvetwin` returns: `None` or two solutions, where `none` is a solution containing NaN.  `twin.py`
lines 395-431. -/
abbrev TwinRes := Option (Option TwinSol × Option TwinSol)

open Classical in
/-- `twin.py` lines 405-411: the first solution.  Dividing by a vanishing `denominator` or norm gives NaN. -/
noncomputable def twinSol1 (rnd : ℝ → ℝ) (U uj : M3) (e : V3) : Option TwinSol :=
  let Uinv := U⁻¹
  let den := (Uinv *ᵥ e) ⬝ᵥ (Uinv *ᵥ e)
  if den = 0 then none
  else
    let a1 := (2 : ℝ) • (den⁻¹ • Uinv *ᵥ e - U *ᵥ e)
    let rho := vnorm e
    if rho = 0 then none
    else
      let n := fun i => rnd ((rho⁻¹ • e) i)
      let a := fun i => rnd ((rho • a1) i)
      some ((U + outer a n) * uj⁻¹, a, n)

open Classical in
/-- `twin.py` lines 413-418: the second solution. -/
noncomputable def twinSol2 (rnd : ℝ → ℝ) (U uj : M3) (e : V3) : Option TwinSol :=
  let den := (U *ᵥ e) ⬝ᵥ (U *ᵥ e)
  if den = 0 then none
  else
    let n2 := (2 : ℝ) • (e - den⁻¹ • U *ᵥ (U *ᵥ e))
    let a2 := U *ᵥ e
    let rho := vnorm n2
    if rho = 0 then none
    else
      let n := fun i => rnd ((rho⁻¹ • n2) i)
      let a := fun i => rnd ((rho • a2) i)
      some ((U + outer a n) * uj⁻¹, a, n)

open Classical in
/-- `twin.py` lines 425-430: one solution of the branch without axis.  `rho` is a vector, products and
quotients are taken entry by entry, and `0/0` is NaN. -/
noncomputable def twinSolNone (U : M3) (s : M3 × V3 × V3) : Option TwinSol :=
  let rho := Uᵀ *ᵥ s.2.2
  if ∃ i, rho i = 0 then none
  else some (s.1, fun i => rho i * s.2.1 i, fun i => rho i / rho i)

open Classical in
/-- `twin.py` lines 395-431, `_solvetwin`.  The argument `e` is `none` for Python's `None` and
`some none` for an array of NaN.  `elementwise` says whether `array == None` compares entry by entry, as
in recent versions of numpy, in which case line 399 raises `ValueError`.  `la.inv(uj)` in lines 411 and
418 raises `LinAlgError` for singular arrays. -/
noncomputable def solveTwin (eig : M3 → EigRes) (t : Tol) (rnd : ℝ → ℝ) (elementwise : Bool) (U Uj : M3)
    (e : Option (Option V3)) : Except Err TwinRes :=
  match e with
  | some v =>
    if elementwise then .error .valueError
    else if U.det = 0 then .error .linAlgError
    else
      let ehat := v.bind unitVec
      let uj := ehat.map fun x => r180 x * U * (r180 x)ᵀ
      match isVariant t U uj with
      | .error e => .error e
      | .ok false => .ok none
      | .ok true =>
        match v, uj with
        | some v, some uj =>
          if uj.det = 0 then .error .linAlgError
          else .ok (some (twinSol1 rnd U uj v, twinSol2 rnd U uj v))
        | _, _ => .ok none
  | none =>
    if U.det = 0 then .error .linAlgError
    else
      match solveAm eig ((U⁻¹ * Uj) * (Uj * U⁻¹)) with
      | .error e => .error e
      | .ok .nothing => .error .typeError
      | .ok .nan => .ok (some (none, none))
      | .ok (.two x y) => .ok (some (twinSolNone U x, twinSolNone U y))

/-- `twin.py` lines 293-309, `twinparam`. -/
noncomputable def TwinPair.twinParam (eig : M3 → EigRes) (t : Tol) (rnd : ℝ → ℝ) (elementwise : Bool)
    (p : TwinPair) : Except Err TwinRes :=
  if p.isTwinnable = false then .error .attributeError
  else
    match p.ax with
    | .error e => .error e
    | .ok l => solveTwin eig t rnd elementwise p.Ui p.Uj l.head?

/-- `U a · cof(U² - I) n` with `_brute_cof`; the 3 × 3 cofactor matrix always exists.  `twin.py` lines 289-290
and 439. -/
noncomputable def cofVal (U : M3) (a n : V3) : ℝ :=
  match bruteCof (U * U - 1) with
  | .ok C => (U *ᵥ a) ⬝ᵥ C *ᵥ n
  | .error _ => 0

/-- `twin.py` lines 279-290, `direct_cof`; `none` is NaN. -/
noncomputable def TwinPair.directCof (eig : M3 → EigRes) (t : Tol) (rnd : ℝ → ℝ) (elementwise : Bool)
    (p : TwinPair) : Except Err (Option ℝ × Option ℝ) :=
  match p.twinParam eig t rnd elementwise with
  | .error e => .error e
  | .ok none => .error .typeError
  | .ok (some (x, y)) =>
    .ok (x.map fun s => -cofVal p.Ui s.2.1 s.2.2, y.map fun s => -cofVal p.Ui s.2.1 s.2.2)

open Classical in
/-- `twin.py` lines 433-456, `_solve_f`; `none` is Python's `None`.  Line 449 is unreachable because `f`
is at least 1/2, but kept. -/
noncomputable def solveF (U : M3) (a n : V3) : Option ℝ :=
  let minusAlpha := 2 * cofVal U a n
  let beta := (U * U - 1).det + minusAlpha / 4
  if |minusAlpha| < small then some 0
  else if 0 < beta / minusAlpha then
    let f := 1 / 2 + Real.sqrt (beta / minusAlpha)
    if |1 - f| < 1 / 10 ^ 6 then some 1
    else if |f| < 1 / 10 ^ 6 then some 0
    else if 0 < f ∧ f < 1 then some f
    else none
  else none

/-- `_solve_f` on a solution; all comparisons with NaN are false, so the result is `None`.  `twin.py` lines
329-348. -/
noncomputable def fracOf (U : M3) : Option TwinSol → Option ℝ
  | none => none
  | some s => solveF U s.2.1 s.2.2

/-- `twin.py` lines 329-348, `volumefrac`. -/
noncomputable def TwinPair.volumeFrac (eig : M3 → EigRes) (t : Tol) (rnd : ℝ → ℝ) (elementwise : Bool)
    (p : TwinPair) : Except Err (Option ℝ × Option ℝ) :=
  match p.twinParam eig t rnd elementwise with
  | .error e => .error e
  | .ok none => .error .typeError
  | .ok (some (x, y)) => .ok (fracOf p.Ui x, fracOf p.Ui y)

/-- The argument `twintype`; `other` is any other value.  `twin.py` lines 316-320 and 355-356. -/
inductive TwinType
  | I
  | II
  | C
  | other

/-- `twin.py` lines 311-323, `iscompatible`. -/
noncomputable def TwinPair.isCompat (eig : M3 → EigRes) (t : Tol) (rnd : ℝ → ℝ) (elementwise : Bool)
    (p : TwinPair) (ty : TwinType) : Except Err Bool :=
  match ty with
  | .other => .error .valueError
  | _ =>
    match p.volumeFrac eig t rnd elementwise with
    | .error e => .error e
    | .ok (f, g) =>
      match ty with
      | .I => .ok f.isSome
      | .II => .ok g.isSome
      | _ => .ok (f.isSome || g.isSome)

/-- `Uf.T.dot(Uf)` for `Uf = U + f * np.outer(a, n)`, `twin.py` lines 370-373. -/
noncomputable def mixMetric (U : M3) (a n : V3) (f : ℝ) : M3 := (U + f • outer a n)ᵀ * (U + f • outer a n)

/-- `hps.extend(_solve_am(C))`: extending by `None` raises `TypeError`; `none` is a solution with NaN.
`twin.py` lines 372-373. -/
noncomputable def extendAm (eig : M3 → EigRes) (C : M3) : Except Err (List (Option (M3 × V3 × V3))) :=
  match solveAm eig C with
  | .error e => .error e
  | .ok .nothing => .error .typeError
  | .ok .nan => .ok [none, none]
  | .ok (.two x y) => .ok [some x, some y]

/-- `twin.py` lines 367-373: one pass of the loop.  A fraction `None` in line 370 raises `TypeError`.
A solution containing NaN has fraction `None`. -/
noncomputable def habitStep (eig : M3 → EigRes) (U : M3) (s : Option TwinSol) (f : Option ℝ) :
    Except Err (List (Option (M3 × V3 × V3))) :=
  match f, s with
  | some f, some s =>
    match extendAm eig (mixMetric U s.2.1 s.2.2 f) with
    | .error e => .error e
    | .ok l =>
      match extendAm eig (mixMetric U s.2.1 s.2.2 (1 - f)) with
      | .error e => .error e
      | .ok l' => .ok (l ++ l')
  | _, _ => .error .typeError

/-- `twin.py` lines 350-376, `habitplanes`. -/
noncomputable def TwinPair.habitPlanes (eig : M3 → EigRes) (t : Tol) (rnd : ℝ → ℝ) (elementwise : Bool)
    (p : TwinPair) (ty : TwinType) : Except Err (List (Option (M3 × V3 × V3))) :=
  match ty with
  | .other => .error .valueError
  | _ =>
    match p.isCompat eig t rnd elementwise .C with
    | .error e => .error e
    | .ok false => .error .attributeError
    | .ok true =>
      match p.twinParam eig t rnd elementwise, p.volumeFrac eig t rnd elementwise with
      | .ok (some (x, y)), .ok (f, g) =>
        match habitStep eig p.Ui x f with
        | .error e => .error e
        | .ok l =>
          match habitStep eig p.Ui y g with
          | .error e => .error e
          | .ok l' => .ok (l ++ l')
      | _, _ => .error .typeError

/-! ### the cache of `isconventional` and `TwinSystem` -/

/-- A `TwinPair` together with its field `__conventional`.  `twin.py` lines 153 and 190-205. -/
structure PairObj where
  p : TwinPair
  conv : Option Bool

open Classical in
/-- `twin.py` lines 199-203: whether some matrix of the list carries `Ui` to `Uj`. -/
noncomputable def TwinPair.related (p : TwinPair) (G : List M3) : Bool :=
  G.any fun Q => decide (maxClose (Q * p.Ui * Qᵀ) p.Uj)

/-- `twin.py` line 198: the matrices used; `none` is a call without argument. -/
noncomputable def convGroup : Option (List M3) → List M3
  | none => (cubicR.take 10).drop 1
  | some G => G

/-- `twin.py` lines 190-205, `isconventional`: the new object and the answer. -/
noncomputable def PairObj.isConventional (o : PairObj) (G : Option (List M3)) : PairObj × Bool :=
  match o.conv with
  | some b => (o, b)
  | none =>
    if o.p.isTwinnable = false then (o, false)
    else
      let b := o.p.related (convGroup G)
      (⟨o.p, some b⟩, b)

/-- A `TwinSystem` object: `__Ulist`, `__Laue` (`none` if the attribute was never set), `__twintable` and
`__twinpairs`.  `twin.py` lines 13-34. -/
structure TwinSys where
  us : List M3
  laue : Option (List M3)
  table : Option (List (ℕ × ℕ))
  pairs : Option (List PairObj)

/-- `twin.py` lines 13-34, `TwinSystem.__init__` with an array of matrices and nothing else
(`args = none`), a `MatrixGroup` (`some (some G)`) or something else (`some none`). -/
noncomputable def TwinSys.new (us : List M3) (arg : Option (Option (List M3))) : TwinSys :=
  match arg with
  | none => ⟨us, some cubicR, none, none⟩
  | some G => ⟨us, G, none, none⟩

/-- `twin.py` lines 13-17: `TwinSystem.__init__` with a `Martensite` object. -/
noncomputable def TwinSys.ofMart (t : Tol) (m : Mart) : Except Err TwinSys :=
  match m.getVariants t with
  | .error e => .error e
  | .ok us => .ok (TwinSys.new us none)

/-- `twin.py` lines 61-62: the index pairs in the order in which they are visited. -/
def indexPairs (N : ℕ) : List (ℕ × ℕ) :=
  (List.range (N - 1)).flatMap fun i => (List.range' (i + 1) (N - (i + 1))).map fun j => (i, j)

/-- `twin.py` lines 61-66: the loop.  The lists are fields, so if a constructor raises they keep what was
appended before. -/
noncomputable def fillTable (eig : M3 → EigRes) (us : List M3) :
    List (ℕ × ℕ) → List (ℕ × ℕ) → List PairObj → List (ℕ × ℕ) × List PairObj × Option Err
  | [], tt, tp => (tt, tp, none)
  | (i, j) :: rest, tt, tp =>
    match TwinPair.new eig (us.getD i 0) (us.getD j 0) true with
    | .error e => (tt, tp, some e)
    | .ok p =>
      if p.isTwinnable then fillTable eig us rest (tt ++ [(i, j)]) (tp ++ [⟨p, none⟩])
      else fillTable eig us rest tt tp

/-- `twin.py` lines 54-67, `TwinTable`. -/
noncomputable def TwinSys.twinTable (eig : M3 → EigRes) (s : TwinSys) :
    TwinSys × Except Err (List (ℕ × ℕ)) :=
  match s.table with
  | some tt => (s, .ok tt)
  | none =>
    match fillTable eig s.us (indexPairs s.us.length) [] [] with
    | (tt, tp, none) => (⟨s.us, s.laue, some tt, some tp⟩, .ok tt)
    | (tt, tp, some e) => (⟨s.us, s.laue, some tt, some tp⟩, .error e)

/-- `twin.py` lines 87-89 (97-98, 108-109, 118-119), `getTwinpairs`. -/
noncomputable def TwinSys.getPairs (eig : M3 → EigRes) (s : TwinSys) : TwinSys × Except Err (List PairObj) :=
  match s.pairs with
  | some tp => (s, .ok tp)
  | none =>
    match s.twinTable eig with
    | (s', .error e) => (s', .error e)
    | (s', .ok _) =>
      match s'.pairs with
      | some tp => (s', .ok tp)
      | none => (s', .error .typeError)

/-- `twin.py` lines 99-100: call `isconventional(G)` on every pair; the objects afterwards and the indices
of those that answered true, counted from `k`. -/
noncomputable def convLoop (G : List M3) : ℕ → List PairObj → List PairObj × List ℕ
  | _, [] => ([], [])
  | k, o :: os =>
    let r := o.isConventional (some G)
    let rest := convLoop G (k + 1) os
    (r.1 :: rest.1, if r.2 then k :: rest.2 else rest.2)

/-- `twin.py` lines 91-100, `getConventional`. -/
noncomputable def TwinSys.getConventional (eig : M3 → EigRes) (s : TwinSys) : TwinSys × Except Err (List ℕ) :=
  match s.getPairs eig with
  | (s', .error e) => (s', .error e)
  | (s', .ok tp) =>
    match tp, s'.laue with
    | [], _ => (s', .ok [])
    | _ :: _, none => (s', .error .attributeError)
    | tp, some G =>
      let r := convLoop G 0 tp
      (⟨s'.us, s'.laue, s'.table, some r.1⟩, .ok r.2)

/-- The indices, counted from `k`, of the pairs on which `f` is true.  `twin.py` lines 110 and 120. -/
noncomputable def indicesOf (f : TwinPair → Except Err Bool) : ℕ → List PairObj → Except Err (List ℕ)
  | _, [] => .ok []
  | k, o :: os =>
    match f o.p with
    | .error e => .error e
    | .ok b =>
      match indicesOf f (k + 1) os with
      | .error e => .error e
      | .ok l => .ok (if b then k :: l else l)

/-- `twin.py` lines 102-110, `getCompound`. -/
noncomputable def TwinSys.getCompound (eig : M3 → EigRes) (s : TwinSys) : TwinSys × Except Err (List ℕ) :=
  match s.getPairs eig with
  | (s', .error e) => (s', .error e)
  | (s', .ok tp) => (s', indicesOf TwinPair.isCompound 0 tp)

/-- `twin.py` lines 112-128, `getTypeI` and `getTypeII`. -/
noncomputable def TwinSys.getTypeI (eig : M3 → EigRes) (s : TwinSys) : TwinSys × Except Err (List ℕ) :=
  match s.getPairs eig with
  | (s', .error e) => (s', .error e)
  | (s', .ok tp) => (s', indicesOf TwinPair.isTypeI 0 tp)

/-- The calls a user can make: the methods of the `TwinSystem`, and `isconventional` of the `k`-th pair with
or without a group.  `twin.py` lines 54-128 and 190-205. -/
inductive TwinOp
  | table
  | pairs
  | conventional
  | compound
  | typeI
  | pairConventional (k : ℕ) (G : Option (List M3))

/-- What a call returns.  The pairs are described by their two stretches.  `twin.py` lines 54-128 and 190-205.
-/
inductive TwinVal
  | table (l : List (ℕ × ℕ))
  | pairs (l : List (M3 × M3))
  | indices (l : List ℕ)
  | bool (b : Bool)

/-- Wrap the result of a call.  Not part of the program. -/
def wrap {α : Type} (f : α → TwinVal) : TwinSys × Except Err α → TwinSys × Except Err TwinVal
  | (s, .error e) => (s, .error e)
  | (s, .ok x) => (s, .ok (f x))

/-- One call.  `twin.py` lines 54-128 and 190-205. -/
noncomputable def TwinSys.step (eig : M3 → EigRes) (s : TwinSys) : TwinOp → TwinSys × Except Err TwinVal
  | .table => wrap .table (s.twinTable eig)
  | .pairs => wrap (fun l => .pairs (l.map fun o => (o.p.Ui, o.p.Uj))) (s.getPairs eig)
  | .conventional => wrap .indices (s.getConventional eig)
  | .compound => wrap .indices (s.getCompound eig)
  | .typeI => wrap .indices (s.getTypeI eig)
  | .pairConventional k G =>
    match s.getPairs eig with
    | (s', .error e) => (s', .error e)
    | (s', .ok tp) =>
      match tp[k]? with
      | none => (s', .error .indexError)
      | some o =>
        let r := o.isConventional G
        (⟨s'.us, s'.laue, s'.table, some (tp.set k r.1)⟩, .ok (.bool r.2))

/-- The state after a sequence of calls.  Not part of the program. -/
noncomputable def TwinSys.after (eig : M3 → EigRes) (s : TwinSys) (ops : List TwinOp) : TwinSys :=
  ops.foldl (fun s o => (s.step eig o).1) s

end Verif.Model
