# Formal model of PyStrucTrans in Lean 4

## 1. Trusted base

* Lean 4.33.0's kernel, and Mathlib as a library of kernel-checked theorems.
* Axioms: only `propext`, `Classical.choice`, `Quot.sound` (Lean's standard three). No axiom is
  added; there is no `sorry`, `admit`, `native_decide` or `bv_decide`.
* The reading of the Python source. The model is hand-written from `/repo/structrans`; every definition cites
  the file and lines it models, and where it simplifies, says so.

### 1.1 Modelling conventions (all of them are assumptions about the code's environment)

| Python | model |
|---|---|
| Python / numpy integers | `Int` / `Nat` (no int64 overflow, no float rounding of integer-valued arrays) |
| floats | exact reals `ℝ`. Tolerance comparisons (`allclose`, `< SMALL`, ...) are kept literally: `Tol.code` carries numpy's `atol`/`rtol`, `Tol.exact` is the idealised comparison. Rounding error is not modelled except in C87, where the distances and the radius of the direct search are arbitrary within an error bound (so `-0.0` in byte keys of caches, underflow of `la.det(E)**2` and rounding in `la.det(l) != 0` are not modelled) |
| `'/'` on integers | parameter `Py` (`py2` floor division, `py3` true division) where the two differ |
| `raise` / run-time exceptions | values of `Except Err α`, one constructor of `Err` per Python exception class |
| NaN results | `none` (an operation on a zero-length vector etc.) |
| `np.empty` memory | an arbitrary value supplied as a parameter and universally quantified |
| `la.inv` | exact inverse, with `LinAlgError` on singular matrices |
| `la.eig` | a parameter with a contract (`EigOK`, `IsEigenvalues`, `IsEigenSystem`): returned pairs are eigenpairs, vectors of unit length, every eigenvalue with its multiplicity. Nothing is assumed about order, sign or the choice inside an eigenspace |
| `np.round(x, 10)` | a parameter `rnd` with the contract of being within 5e-11 |
| `array == None` | a flag: elementwise (numpy ≥ 1.13, truth value raises) or object comparison |
| `scipy.optimize` / random starts | arbitrary oracle / arbitrary candidate stream |
| iteration order of a Python `set` | an arbitrary list with the same members |
| `while` loops | well-founded recursion with a termination proof where possible; otherwise fuel (`Run`: `ok`/`err`/`out`), with a theorem that sufficient fuel exists |
| object state and caching | explicit state machines, quantifying over call sequences (`Props/TwinSys`, `Props/LatOpt`) |
| aliasing of arrays | a heap of buffers, objects holding references and views (`Model/Heap`) |
| multiprocessing | labelled transition system, arbitrary completion schedule (`Model/Par`, `Model/Para`) |

### 1.2 What is modelled

| file in /repo/structrans | model | not modelled in that file |
|---|---|---|
| util/utils.py | `Model/Util`, `Model/Rotation`, `Model/Rank1`, `Model/Twin` | – |
| mat_math.py | `Model/MatMath`, `Model/Rotation` | – |
| crystallography/hnf.py, sublattice.py (same text) | `Model/Hnf` | – |
| crystallography/lattice.py | `Model/Lattice`, `Model/Heap`, `Model/Describe` | number formatting in `__str__` |
| crystallography/matrix_group.py | `Model/MatrixGroup` (tables literally), `Model/Heap` | – |
| crystallography/bravais_lattice.py | `Model/Bravais`, `Model/Heap`, `Model/Describe`, `Model/Format` | – |
| crystallography/spacegroup.py | `Model/Rotation` | – |
| crystallography/lattice_reduction.py | `Model/LLL` | – |
| crystallography/visualization.py | `Model/Visual`, `Model/Box` | the methods of `UnitCell`, which no object can reach |
| crystallography/stereogram.py | `Model/Stereo`, `Model/Box` | – |
| marttrans/lat_cor/dist.py | `Model/Dist` | – |
| marttrans/lat_cor/quartic_opt.py | `quart_min` with scipy (`minimize` a parameter) and without it (`_quartic_roots` as written) | the method inside `minimize`; the distribution of the random vectors |
| marttrans/lat_cor/main_direct.py | `Model/Direct`, `Model/SolList`, `Model/VecGen`, `Model/Report`, `Model/LatCor` | log output except `_sols_tostr` (`Model/Format`, `Model/SolsText`); the random draws are an arbitrary list |
| marttrans/lat_cor/main_direct_para.py | `Model/Para` | process start-up, pickling |
| marttrans/lat_cor/main_hnf.py | `Model/MainHnf`, `Model/Par`, `Model/SolList`, `Model/Report`, `Model/LatCorHnf` | log output except `_sols_tostr` |
| marttrans/lat_cor/slnode.py, dfs.py, lat_opt.py | `Model/LatOpt`, `Model/LatOptPlane` | – |
| marttrans/lat_cor/solver.py | `Model/Solver` (the module cannot be imported under Python 3) | log output; the class never searches |
| marttrans/martensite.py | `Model/Martensite`, `Model/Heap`, `Model/SetLaue` | – |
| marttrans/twin.py | `Model/Twin`, `Model/Heap` | – |
| marttrans/orientation_relationship.py | `Model/OrientRel` | – |
| marttrans/Compatibility.py | `Model/Rank1`, `Model/Micro` | – |

Logging, printing (except the report of the solutions), keyword parsing (except where it decides a property), matplotlib drawing, file
output, process start-up, numerical rounding, the accuracy of LAPACK and SLSQP, performance are not modelled.

## 2. Layout

* `lean/Verif/Model/*.lean` – the code, function by function.
* `lean/Verif/Spec/*.lean` – small specifications independent of the model.
* `lean/Verif/Lemmas/*.lean` – helper lemmas.
* `lean/Verif/Props/*.lean` – the property theorems, with non-vacuity examples next to them.
* `seeded/LOG.jsonl` – wrong programs the theorems were tried against.

When the code violates a property the negation is proved with a concrete witness (theorem name
contains `_fails`), and the strongest true part is kept under a name ending in `_partial`.

## 3. Plan per property

C01 `divisors` as list filter; membership/sortedness by induction on ranges.
C02 C03 `hnf_from_diag`, `hnf_from_det` as list recursions; exactness and `Nodup` by induction on the dimension.
C04 from C03, C05, C06 (existence by `hnfd`, uniqueness by uniqueness of HNF).
C05 `hnfd` by recursion on dimension; `__gcd_cols` by well-founded recursion; invariant "right multiplication by a unimodular matrix".
C06 uniqueness of the HNF in a class `M·GL(n,ℤ)`, by induction on rows.
C07 singular input reaches a zero pivot; follow the exception.
C08 the `/` parameter; negation on a witness for Python 2, the Python 3 theorem is C05.
C09 C10 greedy representative filter against a group action; induction over the list.
C11 definitional check plus `det² > 0 ↔ det ≠ 0`.
C12 the exact version is "sublattice"; negation of symmetry; partial: equal lattices compare equal and equal |det| suffices.
C13 C14 exact versions of the predicates against a set-level specification of "maps lattice onto itself".
C15 C16 C17 intersection of a finite group with the lattice stabiliser is a group; exact predicates; completeness in the toleranced model is not claimed. C16 in the plane, exactly (`Props/PlaneGroup`): the form det(p, Mp) of an integer rotation has a minimal value, which is a unit by division with remainder, so that a lattice with a rotation other than a half turn has a reflection; then the tables are compared case by case.
C18 alias model; negation for `getlatticegroup`, `toPrimitive`, `toConventional`.
C19 whole-table kernel computation; completeness by reasoning on integer orthogonal matrices.
C20 list model of the double loop.
C21 decision procedure model of `__init__`; NaN triclinic witness.
C22 C23 symbolic bases over ℝ, `cos`, `sin`; Gram matrices computed by `ring_nf`/trigonometric identities.
C24 matrix identities; one-element list collapse modelled.
C25 the code's construction (cross product, change of basis) against Rodrigues' formula; negation for the antiparallel axis.
C26 list-of-letters model.
C27 powers of a rotation by 2π/n; Python 2 integer division negation.
C28 C29 C30 trace identities over ℝ.
C31 finite sums; derivative as the linear coefficient of the polynomial in the direction.
C32 Cauchy–Schwarz / norm inequalities on the columns.
C33 C34 generator as list recursion; exactness by induction over dimension; negation for resume.
C35 C36 C37 solution list refinement: abstract specification "seen classes with < nsol strictly better seen".
C38 outer loop as transition system with an arbitrary candidate stream; partial because of C34.
C39 polar decomposition via Mathlib's positive square root / or defining equations.
C40 C41 merge model + scheduler LTS.
C42 list filter.
C43 C44 descent over a discrete set; termination by finiteness of sublevel sets.
C45 C46 bfs/lat_opt state machine.
C47 tree with pruning rules; negation with a concrete word if it fails, otherwise partial.
C48 C49 C50 column operations, invariants over the iteration.
C51 C52 C53 orbit/stabiliser arguments over an arbitrary finite matrix group.
C54 C55 C56 C57 C58 linear algebra identities; witnesses for wrong branches.
C59 list model with lazily filled caches.
C60 C61 C62 C63 C64 algebraic identities.
C65 heap model with aliasing.
C66 negation with a witness stream; partial for nsol = 1.
C67 composition of C03, C05, C06, C09 over the index window; group action on normal forms (`Props/MainHnf`). The half that holds under both interpreters (C09, C10, C67: no class is lost) is in `Props/Python2`.
C68 uniqueness of the rank-one solutions: C and m determine b; m lies in the plane of the extreme eigenvectors (`Props/Rank1`).
C69 half turns carrying Ui to Uj are the half turns about eigenvectors of a commuting problem; tolerance kept (`Props/Twin`, `Props/TwinSolve`).
C70 from C57 and C68 applied to the laminate (`Props/Habit`).
C71 heap model with aliasing; negations with witnesses for the shared arrays, partial for the copying constructors (`Props/Heap`).
C72 counting argument on the invariant of the solution list: some trial matrix is always acceptable when enough of them compete, none is once all classes are held; negations for a square lattice and for scaled lattices (`Props/Init`).
C73 the crystallographic restriction and integrality of the symmetries in suitable coordinates show that the tables are complete for plane lattices and six Bravais types; explicit rotations missing for the others (`Spec/Complete`, `Props/Complete`).
C74 the cofactor matrix of a singular symmetric matrix is a multiple of the square of its kernel vector; an axis perpendicular to an unstretched direction, or a second unstretched direction, gives a second axis, so for a single axis the values factor (`Spec/Cofactor`, `Props/Cofactor`).
C75 the description as its parts, read back with crystallographic conventions and compared with the metric of the conventional base; negation for triclinic lattices (`Model/Describe`, `Spec/Describe`, `Props/Describe`). The text itself: `Model/Format`, `Props/DescribeText`.
C76 the table of sample parameters literally, fed to the models of BravaisLattice and Laue_group; for each type the members of the tables that pass are shown integral and the others at least 1/1000 from integral; negation for the rhombohedral type (`Model/SetLaue`, `Spec/Systems`, `Props/SetLaue*`).
C77 `lat_cor` composed of the models of its parts (constructor, groups, tensor, radius, search, report), with the keywords; composition theorem for all draws; negations by runs evaluated in the kernel (`Model/LatCor`, `Props/LatCor`, `Props/LatCorRuns`, `Props/LatCorLabel`).
C78 the label of `_sols_tostr` and the keyword `dist`; value of the printed number from C77; negation by a run (`Model/LatCor`, `Props/LatCorLabel`).
C79 `quart_min` with scipy's `minimize` as a parameter and the Newton fallback step by step over the reals; spec of the minimum and of critical points by derivatives; derivative of the equations computed for every tensor; negations at the vector with equal entries for two orthonormal cells (`Model/Quartic`, `Lemmas/QuarticRoots`, `Props/Quartic`).
C80 the object as a record, the methods as functions with exceptions, histories as folds; invariants by induction on the history; comparison with the model of `Martensite.setU` (`Model/Micro`, `Props/Micro`).
C81 `box` as a filter with the tests as written; spec by the coordinates of a point with respect to the edges; for orthogonal edges the projections are the coordinates (`Model/Box`, `Spec/Box`, `Props/Box`).
C82 the binding of arguments by Python as a function; the constructor on top of it (`Model/Box`, `Props/Box`).
C83 `pole_figure` as a loop over the model of `stereo_proj`; induction over the list (`Model/Box`, `Props/Box`).
C84 potential argument on the squared lengths of the Gram-Schmidt vectors: a swap multiplies the potential by less than 3/4, keeps their product and does not raise their maximum, which bounds the potential below (`Lemmas/LLLTerm`, `Props/LLLTerm`).
C85 composition of the models of the constructor, the groups, the sizes and normal forms, the reduction, `lat_opt`, the pool and the report (`Model/LatCorHnf`); invariant of the merge over any order (`Lemmas/HnfMerge`); outcome in `Props/LatCorHnf`; counterexamples in `Props/LatCorHnfMissed` (a tetragonal lattice with a cubic sublattice; an angle above 180 degrees).
C86 `Model/Solver`: the object with its unset attributes, the methods and histories of calls; the invariant of the solution list (`Lemmas/SolList`) extended to all matrices drawn; ending characterised with the classes of trial matrices as in C72.
C87 the models of `main_direct` are polymorphic in the distance, so they are run with a distance that is not constant on classes. Invariant in `Lemmas/Rounding`: each class seen is in the list or its upper bound exceeds all distances in the full list. Radius: C32 at the distance decreased by the error. Example run with errors that differ inside a class.
C88 `Props/Perturbed`: with `E' = E(1+F)` the coefficients satisfy `M' - M = (MF - FM) - F(M' - M)`; a bound in the row sum norm gives at most `4 phi K`; so each test of the filter has the same outcome and `rint` the same result.
C89 `Props/LLLSimilar`: each step of the loop uses only ratios of scalar products, which a similarity leaves alone; induction over the loop; the sign of the determinant of `S` appears on both sides of the final comparison.
C90 `Props/Units`: the primitive bases are homogeneous in the lengths, type by type; every later quantity is made from quotients such as `E_A^-1 E_M`, `E_M (E_A L)^-1`, `det E_M / det E_A`; for the start of `lat_opt` C89 with `S = c 1`.
C91 `Props/VariantChoice`: the list is the orbit under the group (C52) and the orbit of a member is the orbit; for the availability the Laue groups of the two lattices are conjugate as long as the cubic table decides; counterexample with a lattice that is hexagonal about `z` for one variant and about `x` for the other.
C92 `Spec/Numeral` reads numbers in a text, `Spec/PrintedReport` says which numbers belong in it; `Model/Format` models the conversions `%d`, `{:.nf}` and `{:g}` on real numbers, `Model/SolsText` models `_sols_tostr`; induction over the characters for the conversions (`Lemmas/Format`), over the lines and the solutions for the text (`Lemmas/SolsText`, `Props/SolsText`); the centring matrices are half-integer with integer inverses.
C93 `Spec/Frame` defines the turned data and equality up to order and sign; the sorted eigenvalues are determined by the characteristic polynomial and unit eigenvectors of simple eigenvalues up to sign (`Lemmas/Frame`); every formula of the code is carried along (`Props/Frame`). The entrywise test of `istwinnable` gives a counterexample.
C94 `Props/Orientation`: the distances see only `R F R^T`; `LLL` is equivariant (C89) and `lat_opt` works with integer matrices from there on, so only the groups matter; the table of the cube is closed under conjugation by its elements. A turned cubic lattice is the counterexample for the groups.
C95 `Spec/Description`, `Props/Planar`, `Props/SelfRun`, `Props/Description`: bases of one lattice differ by an integer matrix with integer inverse; the selection of symmetries tests a property of the set of points; a finished list is the sorted list of the best classes (C77), and two such lists agree by a pigeonhole argument. Finished runs exist for every lattice (`finished_self`).
C96 `Props/Pipeline`: the deformation gradients of equivalent correspondences differ by orthogonal factors; the positive definite root of a matrix is unique, so the stretches are conjugate and the sorted eigenvalues are equal; then C91 for the variants and the optimality of finished lists (C77) for different descriptions.
C97 `Props/Stretches`: spectral theorem for the stretch of a consistent report (C39), whose eigenvalues are the list printed; the distance is the trace of the square of C^-1 - 1.
C98 `Props/Coincide`: a perfect match (C28) is the same as an inclusion of point sets; the first reported solution has the least distance (C77).
C99 `Props/Bain`: in terms of the cube edges a correspondence is an integer matrix whose rows have even squared length, at least 2; congruences exclude three rows of squared length 2; the next possibility is 2, 2, 4 with orthogonal rows, which is the one of Bain.
C100 `Props/CubeOnCube`: a row of the correspondence with more than one unit entry is too long; the others form a signed permutation.
C101 `Props/Tetragonal`, `Props/BainVariants`: the cubic group permutes the axes; the symmetric dyad `c n + n c` with two opposite eigenvalues determines plane and shear.
C102 `Props/TetraLaminate`: determinant, trace and interface condition of the laminates in closed form give the principal stretches `a`, 1 and `a c`; the middle one is 1 exactly under the condition of Ball and James. Then C70.
C103 `Props/TwinSwap`: a solution writes `V² - U²` as a symmetric product of its normal and one other vector; such a product is unique up to order and scale, and the determinant fixes the shear. The laminate of the exchanged pair with fraction `f` has the metric of the laminate with fraction `1 - f`, so fractions and habit planes agree exactly. With rounding (`Props/SmallSwap`): C115 and C116 for both orders; uniqueness of the exact twins matches them, and the interface determinant at `f` of one order is that at `1 - f` of the other. Habit planes (`Props/SwapPlanes`): a plane found for one order fits the laminate of the other order up to the errors of both, so `FindsEveryPlane` (C118) applies.
C104 `Props/Orthorhombic`, `Props/OrthoTwins`: the six stretches form blocks closed under products and cubic rotations, so the symmetry test of each candidate reduces to one entry far from the integers. A vector that two stretches with different axes stretch equally is proved to be far from a principal direction, which bounds the failed axis test away from 1e-12; stretches that commute pass both tests exactly.
C105 `Spec/Monoclinic`, `Props/Monoclinic`, `Props/MonoTwins`: as C104 for blocks with one off-diagonal entry. Two stretches of equal volume are rank-one connected if and only if the difference of their squares is singular; for the pairs without a two-fold axis this determinant is (p² - q²) times a factor that vanishes only for a repeated stretch, and bounds on the eigenvalues turn a determinant away from zero into a middle eigenvalue away from 1.
C106 `Props/TwinFamilies`: the list of variants is a numbering of a finite index type, so the length of each answer is half the number of ordered index pairs with the property, which is evaluated on the index type; whether a pair has the property is C101, C104 and C105.
C107 `Props/SmallStretch`: in the maximum row sum norm the coefficients U^-1 R U differ from R by at most 0.3 and by as much as R moves the stretch up to a factor, so they are integers only if R fixes U, and far from integers otherwise; the hexagonal candidates have an entry one half that moves by at most 0.41. The orbit count gives the divisor of 24 needed for reversibility.
C108 `Spec/FaceDiagonal`, `Props/FaceDiagonal`, `Props/FaceTwins`: rotations of the cube are signed permutation matrices and act on axis and signs; variants from C107. Half turns about cube axes and face diagonals give the twins; the kernel of V^2 - U^2 is explicit and the cross product of it with its image under U^2 bounds the compound test from below; det(V^2 - U^2) bounds the middle eigenvalue away from one for the rest.
C109 `Spec/Trigonal`, `Props/Trigonal`: a trigonal stretch is the stretch of C108 with a = g and d = e for every choice of axis; variants from C107; the shared eigenvector (0, s_j, -s_k) makes each pair compound, and the half turns about the cube axis and the face diagonal identify the two planes.
C110 `Spec/ThreeEdges`, `Props/ThreeEdges`: rotations of the cube permute the entries; variants from C107; the exchange of two axes is a half turn about two face diagonals, which name the planes; the eigenvalues of the relative metric of the other pairs are the squared ratios of the entries, none of them near one.
C111 `Spec/SlightEdges`, `Props/FirstToTwins`: C99 and C100 give the stretch of the first solution, C107 the reliability of the symmetry tests, C106 and C110 the twin systems.
C112 `Spec/GenericTwins`, `Props/GenericTwins`: the half turns of the cube are the entries 1 to 9 of the table and each has an edge or a face diagonal as axis; images from C107 are equal or differ by more than the tolerance; each rotation of the cube is a product of two half turns.
C113 `Spec/AxisTwins`, `Props/AxisTwins`: the middle eigenvector of the relative metric lies along the image of the cross direction; a bound on areas turns the angle into the margin of the test of ax(); for a principal direction the half turns about n and n x y agree on V.
C114 `Props/SmallCofactor`: C113 gives the margin of the axis test, so that C69 and C74 apply without their hypothesis on near misses and the axis is n; `Props/CofactorRounding`: bounds on shear, normal and cofactors give the effect of rounding.
C115 `Props/Accuracy`: the shear of a small stretch is bounded by 4 and the entries of the inverse by 1.15, so the rounding of a and n moves Q by at most 1e-9; C113 gives the exact solutions.
C116 `Props/FractionAccuracy`: rounding moves the number minus_alpha of _solve_f by at most 2e-9 (C114); the determinant is a quadratic polynomial of the fraction, so the root moves by at most 2e-10/(s d).
C117 `Props/BestRankOne`: in the frame of the eigenvectors the error is (1 - l2) times the square of one coordinate; a competitor leaves its plane fixed, and the plane meets the span of two eigenvectors.
C118 `Props/HabitAccuracy`: the metric of the computed laminate is within 3e-8 of the exact one; the theorem of Weyl for three eigenvalues moves the bound of C116 on the determinant to the middle eigenvalue, and C117 gives the error. `Props/HabitComplete` (C118_every_plane): on a plane, the squared length under `1 + b ⊗ m` minus the old one is a product of two linear forms; it is small on another plane only if the normal of that plane is near to one of the two, and the two planes returned are too far apart to be near to the same one. Conversely the other factor of the product is also an exact habit plane (`other_habit`), so a returned plane is near to one of the two exact ones (C118_exact_planes).
C119 `Spec/Refuse`, `Props/Refuse`: the checks are unfolded into a condition on the entries (`NearlyStretch`); that positive definiteness is not checked is shown by a diagonal matrix.
