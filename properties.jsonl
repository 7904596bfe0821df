{"id": "C01", "title": "divisors lists exactly the divisors", "statement": "For every positive integer n, divisors(n) returns a strictly increasing tuple whose members are exactly the positive integers dividing n; for n <= 0 it returns the one-element tuple (n,).", "quantifier": "every integer n", "why_tests_cant": "The set of integers is unbounded; a test fixes finitely many n.", "anchors": ["structrans/util/utils.py:divisors"]}
{"id": "C02", "title": "hnf_from_diag enumerates every HNF with the given diagonal exactly once", "statement": "For every list of positive integers diag of any length N, hnf_from_diag(diag) lists, without repetition, exactly the N x N integer matrices that are lower triangular, have that diagonal, and have each strictly-lower entry of row i in the half-open interval (-diag[i], 0].", "quantifier": "every length N and every positive diagonal", "why_tests_cant": "Both N and the diagonal entries are unbounded; a test compares a handful of tables.", "anchors": ["structrans/crystallography/hnf.py:hnf_from_diag"]}
{"id": "C03", "title": "hnf_from_det enumerates every HNF of a determinant exactly once", "statement": "For every n >= 1 and N >= 1, hnf_from_det(n, N) lists, without repetition, exactly the N x N Hermite normal forms (lower triangular, positive diagonal, row-i off-diagonal entries in (-H[i,i],0]) of determinant n; it raises ValueError for n < 0 and TypeError for N = 0, and for n = 0 returns just the zero matrix.", "quantifier": "every determinant n and dimension N", "why_tests_cant": "Unbounded n and N.", "anchors": ["structrans/crystallography/hnf.py:hnf_from_det", "structrans/util/utils.py:divisors"]}
{"id": "C04", "title": "every sublattice of index n is represented by exactly one enumerated HNF", "statement": "For every N x N integer matrix M with |det M| = n >= 1 there is exactly one H in hnf_from_det(n, N) such that M = H L for an integer matrix L of determinant +-1, and hnfd(M) returns that H.", "quantifier": "every non-singular integer matrix of every dimension", "why_tests_cant": "Infinitely many matrices per determinant.", "anchors": ["structrans/crystallography/hnf.py:hnf_from_det", "structrans/crystallography/hnf.py:hnfd"]}
{"id": "C05", "title": "hnfd returns a Hermite normal form and an exact unimodular factorisation", "statement": "For every non-singular N x N integer matrix M, hnfd(M) (true division) terminates and returns (H, L) with H in Hermite normal form, L integer with det L = +-1, and H L = M; hnfd(M, onlyH=True) returns the same H.", "quantifier": "every non-singular integer matrix of every dimension", "why_tests_cant": "Unbounded matrices; tests draw a few random unimodular factors.", "anchors": ["structrans/crystallography/hnf.py:hnfd", "structrans/crystallography/hnf.py:__gcd_cols", "structrans/crystallography/hnf.py:__nonneg_row"]}
{"id": "C06", "title": "hnfd is canonical and idempotent", "statement": "For every non-singular M and every integer A with det A = +-1, hnfd(M A) and hnfd(M) have the same H part; if H is already in Hermite normal form then hnfd(H A) returns exactly (H, A); in particular hnfd(H) = (H, I).", "quantifier": "every non-singular M and every unimodular A", "why_tests_cant": "The unimodular group is infinite.", "anchors": ["structrans/crystallography/hnf.py:hnfd"]}
{"id": "C07", "title": "hnfd fails loudly on singular input", "statement": "For every singular square integer matrix, hnfd(M) raises an exception instead of returning a factorisation.", "quantifier": "every singular integer matrix of every dimension >= 2", "why_tests_cant": "Unbounded inputs; requires tracking which intermediate division fails.", "anchors": ["structrans/crystallography/hnf.py:hnfd"]}
{"id": "C08", "title": "hnfd gives a normal form under both supported interpreters", "statement": "hnfd returns a Hermite normal form whichever meaning '/' has on integers (floor under Python 2.7, true division under Python 3), both of which setup.py declares supported.", "quantifier": "every non-singular M, both interpreters", "why_tests_cant": "A test run uses one interpreter.", "anchors": ["structrans/crystallography/hnf.py:hnfd", "setup.py"]}
{"id": "C09", "title": "reduce_hnfs keeps exactly one representative of every symmetry class", "statement": "For every list of HNFs and every finite group lg of integer matrices, reduce_hnfs returns members of the input such that every input HNF is related by lg (up to change of basis of the sublattice) to exactly one returned HNF.", "quantifier": "every HNF list and every finite unimodular matrix group", "why_tests_cant": "Groups, list lengths and orders are unbounded.", "anchors": ["structrans/marttrans/lat_cor/main_hnf.py:reduce_hnfs"]}
{"id": "C10", "title": "splitting the HNF reduction over workers loses and duplicates no class", "statement": "divide_work splits any list into consecutive chunks whose concatenation is the list; reducing chunks separately and reducing the concatenated results again leaves exactly one representative per symmetry class, whatever the number of workers.", "quantifier": "every list, chunk size and symmetry group", "why_tests_cant": "Depends on every possible partition.", "anchors": ["structrans/marttrans/lat_cor/main_hnf.py:lat_cor", "structrans/marttrans/lat_cor/main_hnf.py:reduce_hnfs"]}
{"id": "C11", "title": "Lattice accepts exactly the non-singular square bases", "statement": "Lattice(E) succeeds iff E is a square 2-D array with non-zero determinant, otherwise it raises ValueError; on success base() equals E and dimension() its size.", "quantifier": "every array E of any shape", "why_tests_cant": "Unbounded inputs.", "anchors": ["structrans/crystallography/lattice.py:Lattice.__init__"]}
{"id": "C12", "title": "Lattice equality means equality of the generated point sets", "statement": "For all non-singular bases E1, E2 of one dimension, Lattice(E1) == Lattice(E2) iff the integer combinations of the columns are the same set (hence == is an equivalence relation).", "quantifier": "every pair of bases", "why_tests_cant": "A continuum of bases; tests try one permutation.", "anchors": ["structrans/crystallography/lattice.py:Lattice.__eq__"]}
{"id": "C13", "title": "inpointgroup decides the point group", "statement": "For every basis E and every square Q of the same size, inpointgroup(Q) is true iff Q is orthogonal and Q maps the lattice generated by E onto itself (exact arithmetic), and every such Q passes the toleranced test.", "quantifier": "every basis and every matrix Q", "why_tests_cant": "Continuum of inputs.", "anchors": ["structrans/crystallography/lattice.py:Lattice.inpointgroup", "structrans/crystallography/lattice.py:_in_O3"]}
{"id": "C14", "title": "inlatticegroup and inpointgroup agree under conjugation", "statement": "For every basis E and square M, inlatticegroup(M) is true iff M is integer and E M E^-1 is orthogonal, i.e. iff E M E^-1 is in the point group.", "quantifier": "every basis and every matrix M", "why_tests_cant": "Continuum of inputs.", "anchors": ["structrans/crystallography/lattice.py:Lattice.inlatticegroup"]}
{"id": "C15", "title": "Laue_group is a group of lattice-preserving rotations", "statement": "For every 2-D or 3-D lattice, Laue_group() returns pairwise distinct proper rotations each of which maps the lattice onto itself; the identity is included and the list is closed under products and inverses; for other dimensions AttributeError is raised.", "quantifier": "every 2-D/3-D lattice basis", "why_tests_cant": "Continuum of bases; group closure is quadratic per basis.", "anchors": ["structrans/crystallography/lattice.py:Lattice.Laue_group"]}
{"id": "C16", "title": "point_group is a group containing the Laue group", "statement": "For every 3-D lattice point_group() is the Laue group followed by its negatives: it is a group, all members preserve the lattice and its order is twice that of the Laue group. For every 2-D lattice it is a group of orthogonal lattice-preserving matrices containing the 2-D Laue group.", "quantifier": "every 2-D/3-D lattice basis", "why_tests_cant": "Continuum of bases.", "anchors": ["structrans/crystallography/lattice.py:Lattice.point_group"]}
{"id": "C17", "title": "lattice groups are integer groups conjugate to the point groups", "statement": "For every 2-D/3-D lattice with base E, special_lattice_group() (lattice_group()) consists of integer matrices M of determinant 1 (+-1) with E M = Q E for the corresponding Q of the Laue (point) group; each list is a group.", "quantifier": "every 2-D/3-D lattice basis", "why_tests_cant": "Continuum of bases.", "anchors": ["structrans/crystallography/lattice.py:Lattice.special_lattice_group", "structrans/crystallography/lattice.py:Lattice.lattice_group"]}
{"id": "C18", "title": "the deprecated accessors agree with their replacements", "statement": "Each deprecated accessor (getbase, getLauegroup, getpointgroup, getspeciallatticegroup, getlatticegroup, toPrimitive, toConventional, ...) returns what the method named in its warning returns.", "quantifier": "every lattice and index", "why_tests_cant": "Needs equality on all inputs.", "anchors": ["structrans/crystallography/lattice.py:Lattice.getlatticegroup", "structrans/crystallography/bravais_lattice.py:BravaisLattice.toPrimitive", "structrans/crystallography/bravais_lattice.py:BravaisLattice.toConventional"]}
{"id": "C19", "title": "the named symmetry groups are complete groups", "statement": "CUBIC_LAUE_GROUP is exactly the set of all integer 3x3 rotation matrices, in which entries 1..9 are exactly the two-fold rotations; SQUARE_EXT_GROUP is exactly the set of integer 2x2 orthogonal matrices and SQUARE_GROUP its rotations; HEX_LAUE_GROUP, HEX2D_GROUP and HEX2D_EXT_GROUP are groups of 12, 6 and 12 distinct orthogonal matrices with the stated determinants.", "quantifier": "every integer matrix / every pair of members", "why_tests_cant": "Completeness ranges over all integer matrices.", "anchors": ["structrans/crystallography/matrix_group.py:CUBIC_LAUE_GROUP", "structrans/crystallography/matrix_group.py:HEX_LAUE_GROUP", "structrans/crystallography/matrix_group.py:SQUARE_EXT_GROUP", "structrans/crystallography/matrix_group.py:HEX2D_EXT_GROUP"]}
{"id": "C20", "title": "hassubgroup decides containment with Lagrange's condition", "statement": "For all matrix lists g, G: G.hassubgroup(g) is true iff the number of elements of g divides that of G and every member of g matches a member of G; it is reflexive, and for groups in exact arithmetic it is exactly set containment and therefore transitive.", "quantifier": "every pair of groups", "why_tests_cant": "Unbounded groups.", "anchors": ["structrans/crystallography/matrix_group.py:MatrixGroup.hassubgroup"]}
{"id": "C21", "title": "BravaisLattice validates identifiers and parameters", "statement": "BravaisLattice(id, params, dim) succeeds only for dim 2 or 3, id in 1..5 / 1..14, the number of parameters of that type, all parameters positive, and a non-degenerate cell; it raises ValueError for any other id, count or non-positive parameter.", "quantifier": "every id, parameter list and dimension", "why_tests_cant": "Unbounded inputs.", "anchors": ["structrans/crystallography/bravais_lattice.py:BravaisLattice.__init__"]}
{"id": "C22", "title": "BravaisLattice realises the requested lengths and angles", "statement": "For every Bravais type and every admissible parameter list, the conventional cell vectors of the constructed lattice have exactly the requested lengths and mutual angles, and the base is right-handed (positive determinant).", "quantifier": "every type and every admissible real parameter list", "why_tests_cant": "Continuum of parameters.", "anchors": ["structrans/crystallography/bravais_lattice.py:BravaisLattice.__primitiveBase3D__", "structrans/crystallography/bravais_lattice.py:BravaisLattice.__primitiveBase2D__", "structrans/crystallography/bravais_lattice.py:BravaisLattice.conventional_base"]}
{"id": "C23", "title": "conventional_trans is the integer centring matrix", "statement": "For every type conventional_trans() is an integer matrix whose determinant is the number of lattice points per conventional cell (1 for P, 2 for C and I, 4 for F), and base . conventional_trans = conventional_base.", "quantifier": "every type and parameter list", "why_tests_cant": "Continuum of parameters.", "anchors": ["structrans/crystallography/bravais_lattice.py:BravaisLattice.conventional_trans"]}
{"id": "C24", "title": "Miller index conversion is a consistent round trip", "statement": "For every lattice and every index or list of indices, to_conventional_Miller(to_primitive_Miller(x)) = x and conversely, base . to_primitive(x) = conventional_base . x, and indices of the wrong length raise ValueError.", "quantifier": "every lattice, index and list of indices", "why_tests_cant": "Unbounded inputs.", "anchors": ["structrans/crystallography/bravais_lattice.py:BravaisLattice.to_primitive_Miller", "structrans/crystallography/bravais_lattice.py:BravaisLattice.to_conventional_Miller"]}
{"id": "C25", "title": "rotation returns the right-handed rotation about the axis", "statement": "For every non-zero axis and every angle, rotation(angle, axis) is the proper orthogonal matrix fixing the axis and turning the perpendicular plane by the angle right-handedly (Rodrigues formula); angles add under composition.", "quantifier": "every axis and angle", "why_tests_cant": "Continuum of inputs.", "anchors": ["structrans/util/utils.py:rotation"]}
{"id": "C26", "title": "Euler returns the product of axis rotations", "statement": "For every three angles and every three-letter order over XYZxyz, Euler returns the product of the three elementary rotations, applied left to right, which is a proper orthogonal matrix; any other length or letter raises ValueError.", "quantifier": "every angles and order string", "why_tests_cant": "Continuum of inputs.", "anchors": ["structrans/util/utils.py:Euler"]}
{"id": "C27", "title": "screw operation closes after n steps", "statement": "For every n >= 1, p and lattice vector T, the operation (Q, c) returned by skew(n, p, T) turns by 2*pi/n about T, and applying it n times is the pure translation by p T (by (p mod n) T when p > n).", "quantifier": "every n, p, T", "why_tests_cant": "Unbounded n.", "anchors": ["structrans/crystallography/spacegroup.py:skew"]}
{"id": "C28", "title": "Cauchy distance is a symmetry-invariant measure of misfit", "statement": "For every L and non-singular bases: Cauchy_dist >= 0, it is 0 iff E1 L is carried onto E2 by an orthogonal map, it is unchanged by rotating either lattice, and it is unchanged when L is replaced by M1 L M2 with M1, M2 in the lattice groups.", "quantifier": "every correspondence and pair of bases", "why_tests_cant": "Continuum of inputs.", "anchors": ["structrans/marttrans/lat_cor/dist.py:Cauchy_dist"]}
{"id": "C29", "title": "batched and single Cauchy distances agree", "statement": "For every batch of correspondences of any length, Cauchy_dist_vec returns entry by entry Cauchy_dist, on both sides of the batch size switch at 100.", "quantifier": "every batch length and contents", "why_tests_cant": "Unbounded batches.", "anchors": ["structrans/marttrans/lat_cor/dist.py:Cauchy_dist_vec"]}
{"id": "C30", "title": "the other distances are valid misfit measures", "statement": "Eric_dist and strain_dist are non-negative, vanish exactly on perfect matches, and are invariant under the lattice groups used to discard duplicates.", "quantifier": "every correspondence and pair of bases", "why_tests_cant": "Continuum of inputs.", "anchors": ["structrans/marttrans/lat_cor/dist.py:Eric_dist", "structrans/marttrans/lat_cor/dist.py:strain_dist"]}
{"id": "C31", "title": "the quartic tensor represents the deformation norm", "statement": "For all bases and every integer vector l, contracting the tensor D built by lat_cor four times with l gives ||C^-1(l)||^2, and the Jacobian handed to the minimiser is the gradient of that quartic form.", "quantifier": "every basis pair and vector", "why_tests_cant": "Continuum of inputs.", "anchors": ["structrans/marttrans/lat_cor/main_direct.py:lat_cor", "structrans/marttrans/lat_cor/quartic_opt.py:quart_min"]}
{"id": "C32", "title": "the search radius excludes no admissible correspondence", "statement": "If alpha is a positive lower bound of the quartic form on unit vectors then every L with distance at most d has Euclidean norm at most rmax(d).", "quantifier": "every basis pair, L, d and alpha", "why_tests_cant": "Continuum of inputs.", "anchors": ["structrans/marttrans/lat_cor/main_direct.py:lat_cor", "structrans/marttrans/lat_cor/main_direct_para.py"]}
{"id": "C33", "title": "vec_generator enumerates the ball exactly once", "statement": "For every dimension >= 1 and radius, vec_generator(maxlen, dim) yields exactly the integer vectors of Euclidean norm at most maxlen, each exactly once.", "quantifier": "every dimension and radius", "why_tests_cant": "Unbounded dimension and radius.", "anchors": ["structrans/marttrans/lat_cor/main_direct.py:vec_generator"]}
{"id": "C34", "title": "vec_generator resumes without loss", "statement": "Started from a checkpoint that the full enumeration would yield, vec_generator yields exactly the part of the full enumeration from the checkpoint on.", "quantifier": "every dimension, radius and checkpoint", "why_tests_cant": "Unbounded.", "anchors": ["structrans/marttrans/lat_cor/main_direct.py:vec_generator"]}
{"id": "C35", "title": "the solution list holds exactly the best inequivalent candidates", "statement": "After any sequence of candidates has been offered to the direct search, the list is sorted by distance, contains no two symmetry-equivalent correspondences, and contains exactly the seen classes that have fewer than nsol strictly better seen classes.", "quantifier": "every candidate sequence, nsol and symmetry groups", "why_tests_cant": "Histories are unbounded.", "anchors": ["structrans/marttrans/lat_cor/main_direct.py:lat_cor", "structrans/marttrans/lat_cor/main_direct.py:add_sol"]}
{"id": "C36", "title": "the search result is independent of the order of candidates", "statement": "Permuting or re-batching the candidate sequence does not change which symmetry classes are kept nor the list of distances.", "quantifier": "every pair of candidate orders", "why_tests_cant": "Histories are unbounded.", "anchors": ["structrans/marttrans/lat_cor/main_direct.py:add_sol", "structrans/marttrans/lat_cor/main_direct.py:update_sol"]}
{"id": "C37", "title": "update_sol never rejects an admissible candidate of its batch", "statement": "Processing a batch with the cut-off dmax gives the same classes as offering every candidate of the batch, provided the list already holds nsol solutions; DMAX never increases and 'updated' is reported exactly when it decreases.", "quantifier": "every batch and state", "why_tests_cant": "Unbounded batches.", "anchors": ["structrans/marttrans/lat_cor/main_direct.py:update_sol"]}
{"id": "C38", "title": "lat_cor finds the optimal correspondences", "statement": "When the direct search finishes, no non-singular integer correspondence outside the returned classes has a distance smaller than the nsol-th returned one.", "quantifier": "every pair of lattices, every random initialisation", "why_tests_cant": "Infinitely many correspondences and random initial guesses.", "anchors": ["structrans/marttrans/lat_cor/main_direct.py:lat_cor"]}
{"id": "C39", "title": "each reported solution is consistent", "statement": "For every solution L of lat_cor: F = E_M (E_A L)^-1 maps E_A L to E_M, the reported u is symmetric positive definite with u^2 = F^T F, lams are its eigenvalues in ascending order, cor = C_A^-1 L C_M maps conventional cells, and in 3-D det L > 0 for the reported representative.", "quantifier": "every non-singular solution", "why_tests_cant": "Continuum of inputs.", "anchors": ["structrans/marttrans/lat_cor/main_direct.py:lat_cor", "structrans/marttrans/lat_cor/main_hnf.py:lat_cor"]}
{"id": "C40", "title": "merging per-sublattice results keeps the best inequivalent solutions", "statement": "lat_cor_hnf merges sorted per-HNF results into a list that is sorted, free of symmetry-equivalent duplicates and holds exactly the classes with fewer than nsol strictly better ones.", "quantifier": "every sequence of per-HNF results", "why_tests_cant": "Histories are unbounded.", "anchors": ["structrans/marttrans/lat_cor/main_hnf.py:merge_sols", "structrans/marttrans/lat_cor/main_hnf.py:add_sol", "structrans/marttrans/lat_cor/main_hnf.py:truncate_sols"]}
{"id": "C41", "title": "parallel execution merges every sublattice once, in any completion order", "statement": "For every pool size >= 1 and every schedule of task completion, the polling loop merges the result of every HNF exactly once and never starts more than poolsize tasks at a time; the kept classes and distances do not depend on the schedule.", "quantifier": "every pool size, HNF list and completion schedule", "why_tests_cant": "Schedules are unbounded.", "anchors": ["structrans/marttrans/lat_cor/main_hnf.py:lat_cor"]}
{"id": "C42", "title": "the range of sublattice sizes respects the volume threshold", "statement": "The list of sublattice sizes contains exactly the integers k with (1-vol_th) r <= k <= (1+vol_th) r, or the nearest integer to r when there is none.", "quantifier": "every r and vol_th", "why_tests_cant": "Continuum of inputs.", "anchors": ["structrans/marttrans/lat_cor/main_hnf.py:lat_cor"]}
{"id": "C43", "title": "steepest descent terminates in a local minimum", "statement": "For every starting matrix dfs terminates and returns a matrix none of whose 12 transvection neighbours has a smaller distance, whose distance is not larger than the start's and which differs from it by a factor in SL(3,Z).", "quantifier": "every start and pair of lattices", "why_tests_cant": "Termination over an infinite group.", "anchors": ["structrans/marttrans/lat_cor/dfs.py:dfs", "structrans/marttrans/lat_cor/slnode.py:SLNode.steepest_des"]}
{"id": "C44", "title": "the descent cache is transparent", "statement": "For every sequence of dfs calls sharing a cache, each call returns what an uncached call would return.", "quantifier": "every call history", "why_tests_cant": "Histories are unbounded.", "anchors": ["structrans/marttrans/lat_cor/dfs.py:dfs"]}
{"id": "C45", "title": "lat_opt terminates with sorted, distinct, unimodular solutions", "statement": "For every sublattice base and nsol, lat_opt terminates; dopt is non-decreasing and non-empty, dopt[i] is the distance of lopt[i], all lopt have the determinant of the start, no two are symmetry equivalent and dopt[0] does not exceed the distance of the starting point or of any dfs result.", "quantifier": "every input, iteration bounds and nsol", "why_tests_cant": "Unbounded search trees.", "anchors": ["structrans/marttrans/lat_cor/lat_opt.py:lat_opt", "structrans/marttrans/lat_cor/lat_opt.py:bfs", "structrans/marttrans/lat_cor/lat_opt.py:update_solutions"]}
{"id": "C46", "title": "lat_opt keeps exactly the best visited classes", "statement": "The solutions held by lat_opt are exactly the visited classes with fewer than nsol strictly better visited classes, independent of visiting order.", "quantifier": "every visiting sequence", "why_tests_cant": "Histories are unbounded.", "anchors": ["structrans/marttrans/lat_cor/lat_opt.py:update_solutions", "structrans/marttrans/lat_cor/lat_opt.py:truncate_sols"]}
{"id": "C47", "title": "the search tree reaches every product of transvections", "statement": "Every product of k elementary transvections applied to the source is reached at depth at most k of the breadth-first search tree.", "quantifier": "every k and every word", "why_tests_cant": "Words are unbounded.", "anchors": ["structrans/marttrans/lat_cor/slnode.py:SLNode.generate_children", "structrans/marttrans/lat_cor/slnode.py:SLNode.gobacktoparent", "structrans/marttrans/lat_cor/slnode.py:SLNode.gobacktosibling", "structrans/marttrans/lat_cor/slnode.py:SLNode.gobacktouncle"]}
{"id": "C48", "title": "LLL preserves the lattice and its orientation", "statement": "For every non-singular base E, LLL(E) = E A for an integer matrix A with det A = 1, i.e. it is another right/left-handed base of the same lattice.", "quantifier": "every non-singular base of any dimension", "why_tests_cant": "Continuum of inputs, unbounded iterations.", "anchors": ["structrans/crystallography/lattice_reduction.py:LLL", "structrans/crystallography/lattice_reduction.py:Gauss_reduction"]}
{"id": "C49", "title": "LLL returns a reduced base", "statement": "For every non-singular base, LLL returns a single base array whose consecutive projected vectors satisfy the Lovasz condition with factor 4/3 and whose Gram-Schmidt coefficients below the diagonal are all at most 1/2 in absolute value; its first vector is at most 2^((d-1)/2) times as long as the shortest non-zero lattice vector.", "quantifier": "every non-singular base of any dimension", "why_tests_cant": "Continuum of inputs, unbounded iterations.", "anchors": ["structrans/crystallography/lattice_reduction.py:LLL", "structrans/crystallography/lattice_reduction.py:swapping", "structrans/crystallography/lattice_reduction.py:Gauss_reduction"]}
{"id": "C50", "title": "Gram_Schmidt orthogonalises", "statement": "For every base with independent columns, Gram_Schmidt(E) returns (Eo, M) with pairwise orthogonal columns of Eo, M unit lower triangular and E = Eo M^T.", "quantifier": "every independent set of any size", "why_tests_cant": "Unbounded dimension.", "anchors": ["structrans/crystallography/lattice_reduction.py:Gram_Schmidt"]}
{"id": "C51", "title": "setU accepts exactly symmetric positive-definite stretches", "statement": "setU accepts a symmetric positive-definite 3x3 matrix (or 1 to 4 numbers describing one) and rejects everything else with TypeError; it returns a new object with that U and the same Laue group and leaves the original unchanged.", "quantifier": "every argument list", "why_tests_cant": "Continuum of inputs.", "anchors": ["structrans/marttrans/martensite.py:Martensite.setU"]}
{"id": "C52", "title": "getvariants returns the distinct symmetry-related stretches", "statement": "For every U and finite rotation group, the variants are pairwise distinct, are exactly the matrices Q U Q^T over the group, the first one is U, the index lists partition the group with Laueidx[j] = those Q mapping U to variant j, all lists have equal length and (number of variants) x (length) = group order.", "quantifier": "every U and finite group", "why_tests_cant": "Continuum of U.", "anchors": ["structrans/marttrans/martensite.py:Martensite.calcvariants"]}
{"id": "C53", "title": "isreversible means proper subgroup", "statement": "isreversible() is true iff the Laue group of the lattice with base U is a proper subgroup of the parent Laue group.", "quantifier": "every U and Laue group", "why_tests_cant": "Continuum of U.", "anchors": ["structrans/marttrans/martensite.py:Martensite.isreversible"]}
{"id": "C54", "title": "istwinnable characterises rank-one connections", "statement": "For symmetric positive-definite Ui != Uj, the middle eigenvalue of Ui^-1 Uj^2 Ui^-1 equals 1 iff there are a rotation Q and vectors a, n with Q Uj - Ui = a (x) n; the exact test is symmetric in i and j.", "quantifier": "every pair of stretches", "why_tests_cant": "Continuum of inputs.", "anchors": ["structrans/marttrans/twin.py:TwinPair.istwinnable"]}
{"id": "C55", "title": "twinparam solves the twinning equation", "statement": "Whenever twinparam() returns ((Q1,a1,n1),(Q2,a2,n2)), each Q is a rotation, each n a unit vector and Q Uj = Ui + a (x) n.", "quantifier": "every twinnable pair", "why_tests_cant": "Continuum of inputs.", "anchors": ["structrans/marttrans/twin.py:_solvetwin", "structrans/marttrans/twin.py:TwinPair.twinparam"]}
{"id": "C56", "title": "volumefrac returns the fractions allowing an austenite interface", "statement": "A returned fraction f lies in [0,1] and makes det((U+f n(x)a)(U+f a(x)n) - I) = 0; every such fraction in [1/2,1] is found.", "quantifier": "every U, a, n", "why_tests_cant": "Continuum of inputs.", "anchors": ["structrans/marttrans/twin.py:_solve_f", "structrans/marttrans/twin.py:TwinPair.volumefrac"]}
{"id": "C57", "title": "habit plane solutions satisfy the compatibility equation", "statement": "For every symmetric positive-definite C with eigenvalues l1 <= 1 = l2 <= l3, the two pairs (b, m) returned by solve_rank1 / AM_Solver / _solve_am satisfy (I + m(x)b)(I + b(x)m) = C with |m| = 1, and the R returned by _solve_am is a rotation with R C^1/2 = I + b(x)m; nothing is returned exactly when the extreme eigenvalues differ by less than the solver's threshold (1e-24, or 1e-12 for AM_Solver); if the middle eigenvalue is not 1 no pair (b, m) solves the equation.", "quantifier": "every such C", "why_tests_cant": "Continuum of inputs.", "anchors": ["structrans/util/utils.py:solve_rank1", "structrans/marttrans/Compatibility.py:AM_Solver", "structrans/marttrans/twin.py:_solve_am"]}
{"id": "C58", "title": "isCompatible decides rank-one compatibility", "statement": "isCompatible(A, B) is true only if A and a rotated B can differ by a rank-one matrix (middle eigenvalue of B^-T A^T A B^-1 equal to 1 up to tolerance).", "quantifier": "every pair of matrices", "why_tests_cant": "Continuum of inputs.", "anchors": ["structrans/marttrans/Compatibility.py:isCompatible"]}
{"id": "C59", "title": "TwinTable is consistent with the pair list", "statement": "TwinTable() lists exactly the index pairs i<j in lexicographic order whose variants are twinnable, getTwinpairs() is aligned with it entry by entry, every index is classified either compound or type I/II, and results do not depend on the order in which the accessors are called.", "quantifier": "every variant list and call sequence", "why_tests_cant": "Call histories are unbounded.", "anchors": ["structrans/marttrans/twin.py:TwinSystem"]}
{"id": "C60", "title": "directions and planes transform dually", "statement": "For every correspondence L, plane p and direction d, plane_trans(L,p) . direc_trans(L,d) = p . d; both compose along products of correspondences, direc_trans(L^-1) undoes direc_trans(L), and lists are transformed element-wise.", "quantifier": "every L and every list of indices", "why_tests_cant": "Continuum of inputs.", "anchors": ["structrans/marttrans/orientation_relationship.py:direc_trans", "structrans/marttrans/orientation_relationship.py:plane_trans"]}
{"id": "C61", "title": "batched matrix helpers agree with matrix algebra", "statement": "mat_dot, mat_T and mat_det act row by row as matrix product, transpose and determinant for every dimension; mat_trace returns the trace.", "quantifier": "every dimension and batch", "why_tests_cant": "Unbounded dimension.", "anchors": ["structrans/mat_math.py:mat_dot", "structrans/mat_math.py:mat_T", "structrans/mat_math.py:mat_det", "structrans/mat_math.py:mat_trace"]}
{"id": "C62", "title": "cofactor matrices satisfy the adjugate identity", "statement": "For every 3x3 matrix A, cofactor(A)^T A = det(A) I, for both implementations.", "quantifier": "every 3x3 matrix", "why_tests_cant": "Continuum of inputs.", "anchors": ["structrans/mat_math.py:cofactor", "structrans/marttrans/twin.py:_brute_cof"]}
{"id": "C63", "title": "vertex and bonds describe the parallelepiped", "statement": "For every origin and cell, vertex lists the 8 (4) corners and bonds lists 12 (4) edges, each joining corners differing by exactly one cell vector, each cell vector occurring equally often.", "quantifier": "every origin and cell", "why_tests_cant": "Continuum of inputs.", "anchors": ["structrans/crystallography/visualization.py:vertex", "structrans/crystallography/visualization.py:bonds"]}
{"id": "C64", "title": "stereographic projection maps into the disc", "statement": "stereo_proj(p, z) of any direction lies in the disc of radius |z|, depends only on the direction of p, maps the zone axis to the centre and identifies a direction with its mirror image through the equatorial plane.", "quantifier": "every p, z", "why_tests_cant": "Continuum of inputs.", "anchors": ["structrans/crystallography/stereogram.py:stereo_proj"]}
{"id": "C65", "title": "accessors hand out copies", "statement": "Mutating an array returned by base(), getU(), Ulist(), Ui(), Uj() or matrices() never changes what the object returns later.", "quantifier": "every interleaving of accessor calls and client mutations", "why_tests_cant": "Histories are unbounded.", "anchors": ["structrans/crystallography/lattice.py:Lattice.base", "structrans/marttrans/martensite.py:Martensite.getU", "structrans/marttrans/martensite.py:Martensite.getvariants", "structrans/marttrans/twin.py:TwinSystem.Ulist", "structrans/crystallography/matrix_group.py:MatrixGroup.matrices", "structrans/crystallography/bravais_lattice.py:BravaisLattice.lat_param"]}
{"id": "C66", "title": "parallel direct search loses no candidate", "statement": "The multiprocessing direct search offers to the solution list every candidate that the serial search would have accepted.", "quantifier": "every batch layout and candidate stream", "why_tests_cant": "Unbounded streams.", "anchors": ["structrans/marttrans/lat_cor/main_direct_para.py"]}
{"id": "C67", "title": "the HNF search visits every admissible sublattice exactly once up to symmetry", "statement": "For every positive volume ratio r, every threshold below 1 whose window contains an integer and every symmetry group, the reduced list of normal forms lat_cor searches contains, for every sublattice whose index lies in the window, exactly one normal form related to it by the symmetry group, and nothing outside the window.", "quantifier": "every ratio, threshold, group, dimension and sublattice", "why_tests_cant": "Infinitely many sublattices and groups.", "anchors": ["structrans/marttrans/lat_cor/main_hnf.py:lat_cor", "structrans/marttrans/lat_cor/main_hnf.py:reduce_hnfs"]}
{"id": "C68", "title": "the two habit-plane pairs are all solutions", "statement": "For every symmetric positive-definite C with distinct extreme eigenvalues, every orientation-preserving solution (b, m) of (I + m(x)b)(I + b(x)m) = C with |m| = 1 is, up to the common sign of b and m, one of the two pairs solve_rank1 returns.", "quantifier": "every such C, b, m", "why_tests_cant": "A test can verify returned pairs but not that no other pair solves the equation.", "anchors": ["structrans/util/utils.py:solve_rank1"]}
{"id": "C69", "title": "ax() lists the 180 degree axes relating two variants", "statement": "For every rank-one connected pair of distinct variants ax() returns a non-empty list; every axis of a half turn carrying Ui to Uj is in it up to sign, and every vector in it is such an axis; a pair is compound iff there are two.", "quantifier": "every pair of symmetric positive-definite variants related by a rotation", "why_tests_cant": "Continuum of pairs; completeness of a list of axes cannot be seen from its members.", "anchors": ["structrans/marttrans/twin.py:TwinPair.ax", "structrans/marttrans/twin.py:TwinPair.iscompound"]}
{"id": "C70", "title": "habitplanes() returns exactly the habit planes of the twinned laminates", "statement": "For every twin with two volume fractions, habitplanes() returns for each twin and each of the fractions f and 1 - f two triples (R, b, m) such that the rotation R carries the stretch of the laminate to I + b(x)m, and every plane at which a rotation of the laminate meets the undeformed parent is, up to the common sign of b and m, one of them.", "quantifier": "every pair of variants, every solution of the twinning equation and every volume fraction", "why_tests_cant": "A test can verify returned planes but not that there is no other, nor that planes exist whenever some are returned.", "anchors": ["structrans/marttrans/twin.py:TwinPair.habitplanes", "structrans/marttrans/twin.py:_solve_am"]}
{"id": "C71", "title": "arrays shared with the caller do not leak into objects", "statement": "Mutating the array an object was built from, or an array returned by getvariants(), getvariant(n), lat_param() or conventional_trans(), never changes what the object returns later.", "quantifier": "every interleaving of constructor calls, accessor calls and client mutations", "why_tests_cant": "Histories are unbounded and the sharing is invisible in any single return value.", "anchors": ["structrans/crystallography/lattice.py:Lattice.__init__", "structrans/marttrans/martensite.py:Martensite.__init__", "structrans/marttrans/martensite.py:Martensite.getvariants", "structrans/marttrans/martensite.py:Martensite.getvariant", "structrans/marttrans/twin.py:TwinSystem.__init__", "structrans/marttrans/twin.py:TwinPair.__init__", "structrans/crystallography/bravais_lattice.py:BravaisLattice.lat_param", "structrans/crystallography/bravais_lattice.py:BravaisLattice.conventional_trans"]}
{"id": "C72", "title": "the direct search gets past its random initialisation", "statement": "For valid lattices and any number of requested solutions, lat_cor with the direct method leaves the random initialisation, provided the random numbers keep producing every possible trial matrix.", "quantifier": "every pair of valid lattices, every number of solutions, every infinite sequence of random draws", "why_tests_cant": "A test cannot tell a program that draws for ever from one that is slow; the random sequences are infinite.", "anchors": ["structrans/marttrans/lat_cor/main_direct.py:lat_cor", "structrans/marttrans/lat_cor/main_direct.py:add_sol"]}
{"id": "C73", "title": "Laue_group contains every rotation that preserves the lattice", "statement": "Laue_group of a lattice lists every proper rotation mapping the lattice onto itself, not just some of them; special_lattice_group lists every integer matrix of determinant one that preserves the metric of the base.", "quantifier": "every non-degenerate lattice in two and three dimensions, every accepted parameter list of a Bravais lattice", "why_tests_cant": "A test can check the rotations that are returned but not that none of the infinitely many others preserves the lattice.", "anchors": ["structrans/crystallography/lattice.py:Lattice.Laue_group", "structrans/crystallography/lattice.py:Lattice.special_lattice_group", "structrans/crystallography/bravais_lattice.py:BravaisLattice.__init__"]}
{"id": "C74", "title": "direct_cof() decides the cofactor conditions and agrees with XI() and XII()", "statement": "For a twinnable pair of variants direct_cof() returns U a . cof(U^2 - I) n for the two twins. If U leaves a direction unstretched, a value vanishes exactly if the laminates of that twin fit the undeformed parent at every volume fraction; and for a pair that is not compound, exactly if XI() (first twin) or XII() (second twin) equals one.", "quantifier": "every pair of variants and every volume fraction", "why_tests_cant": "The equivalence relates quantities computed along different paths over a continuum of stretches; vanishing is a set of measure zero that random tests never hit.", "anchors": ["structrans/marttrans/twin.py:TwinPair.direct_cof", "structrans/marttrans/twin.py:TwinPair.XI", "structrans/marttrans/twin.py:TwinPair.XII"]}
{"id": "C75", "title": "the printed description of a lattice tells its cell", "statement": "From str(lattice) of an accepted Bravais lattice, that is the name of the type, the centring symbol and the named values, one reads off the edge lengths and angles of the conventional cell the lattice really has, and the number of its lattice points; the description of a plain lattice determines its base.", "quantifier": "every accepted identifier and parameter list, in two and three dimensions", "why_tests_cant": "The code for the description is separate from the code that builds the base; agreement must hold for every type and all parameters.", "anchors": ["structrans/crystallography/bravais_lattice.py:BravaisLattice.__str__", "structrans/crystallography/lattice.py:Lattice.__str__"]}
{"id": "C76", "title": "setLaue selects the rotations of the crystal system", "statement": "setLaue(id), for a Bravais identifier id between 1 and 14, returns a martensite with the same stretch whose Laue group consists of the rotations of the crystal system of that type, in the standard setting, each listed once (24 cubic, 12 hexagonal, 6 rhombohedral, 8 tetragonal, 4 orthorhombic, 2 monoclinic, 1 triclinic); setLaue(group) takes the group over; anything else is rejected with ValueError.", "quantifier": "every Bravais identifier, every group, every receiver, both Python versions", "why_tests_cant": "The group is computed with floating point comparisons from sample parameters in a table; that they are generic for their type, so that no rotation is lost or gained, is a statement about all rotations.", "anchors": ["structrans/marttrans/martensite.py:Martensite.setLaue", "structrans/crystallography/bravais_lattice.py:BravaisLattice.__init__", "structrans/crystallography/lattice.py:Lattice.Laue_group"]}
{"id": "C77", "title": "A call of lat_cor returns the best correspondences of the two lattices", "statement": "lat_cor(brava, pa, bravm, pm, nsol=n) returns, for every two lattices accepted by BravaisLattice, at least n lattice correspondences sorted by distance; no two of them are related by symmetries of the lattices; each distance is the exact mismatch of the metric of the correspondence, each carries its own stretch and stretches; and no correspondence outside their classes is closer than any of them.", "quantifier": "every pair of lattices, dimension 2 and 3, every nsol, slice size, volume threshold in (0,1], every sequence of random draws, every iteration order of sets", "why_tests_cant": "The result depends on random draws, on a search over an infinite set cut off by a computed radius, and on group tables; optimality quantifies over all integer matrices.", "anchors": ["structrans/marttrans/lat_cor/main_direct.py:lat_cor", "structrans/crystallography/lattice.py:Lattice.lattice_group", "structrans/crystallography/bravais_lattice.py:BravaisLattice.__init__", "structrans/marttrans/lat_cor/dist.py:Cauchy_dist"]}
{"id": "C78", "title": "The distance printed for a solution is the one its label names", "statement": "In the output of lat_cor the line 'Assigned distance (...)' of a solution shows the distance named in the parentheses (Cauchy, Ericksen or strain, as chosen by the keyword dist), of that solution.", "quantifier": "every pair of lattices, every value of the keyword dist, every run", "why_tests_cant": "Needs the value of the printed number for all runs and all lattices, against the definition of the named distance.", "anchors": ["structrans/marttrans/lat_cor/main_direct.py:lat_cor", "structrans/marttrans/lat_cor/main_direct.py:_sols_tostr", "structrans/marttrans/lat_cor/dist.py:Eric_dist"]}
{"id": "C79", "title": "quart_min returns the minimum of the quartic form on the unit sphere", "statement": "quart_min(T) returns, for every fourth-order tensor T, the least value of T.dot(x).dot(x).dot(x).dot(x) over the vectors x of length one, with scipy or without it, so that the search radius computed from it is large enough.", "quantifier": "every tensor, every sequence of random starting points, both implementations", "why_tests_cant": "The minimum ranges over a sphere, the starting points are random and a local method may stop anywhere; a test sees a few tensors.", "anchors": ["structrans/marttrans/lat_cor/quartic_opt.py:quart_min", "structrans/marttrans/lat_cor/quartic_opt.py:_quartic_roots", "structrans/marttrans/lat_cor/main_direct.py:lat_cor"]}
{"id": "C80", "title": "A Microstructure keeps the stretch and the Laue group it was given", "statement": "Microstructure works like Martensite: setU accepts a symmetric positive definite stretch as an array or by one to four numbers and getU returns it from then on; setLaue(k) selects the Laue group of the k-th Bravais lattice and getLaue returns it; invalid arguments are refused with an exception that leaves the object unchanged.", "quantifier": "every stretch, every argument of the methods, every history of calls on an object", "why_tests_cant": "The state after an arbitrary history of accepted and refused calls, for every argument.", "anchors": ["structrans/marttrans/Compatibility.py:Microstructure", "structrans/marttrans/martensite.py:Martensite.setU"]}
{"id": "C81", "title": "box keeps the points of the cell", "statement": "box(v_list, E, n) returns the points of v_list that lie in the cell spanned by the columns of E (enlarged by 5 percent at the far faces), in their order, and no others.", "quantifier": "every list of points, every cell, n = 2 and 3", "why_tests_cant": "For all points and all cells, also oblique ones; tests look at single cells.", "anchors": ["structrans/crystallography/visualization.py:box"]}
{"id": "C82", "title": "A UnitCell can be made for every Bravais lattice", "statement": "UnitCell(origin, id, params) returns an object for the unit cell of every Bravais lattice that BravaisLattice accepts.", "quantifier": "every origin, id, parameters and dimension", "why_tests_cant": "Must hold for all lattices and parameters.", "anchors": ["structrans/crystallography/visualization.py:UnitCell.__init__", "structrans/crystallography/bravais_lattice.py:BravaisLattice.__init__"]}
{"id": "C83", "title": "A pole figure has one point for every plane", "statement": "pole_figure(plist, z) returns one point for every plane in plist, in their order, the stereographic projection stereo_proj of that plane alone; a single triple is a list of one; for integer planes and a non-zero integer zone axis all points exist and lie in the disc of radius |z|; input that is not made of triples returns None.", "quantifier": "every list of planes of any length, every zone axis", "why_tests_cant": "Lists of every length and every real vector.", "anchors": ["structrans/crystallography/stereogram.py:pole_figure", "structrans/crystallography/stereogram.py:stereo_proj"]}
{"id": "C84", "title": "Lattice reduction comes to an end and delivers", "statement": "LLL(E) does its work within its iteration limits for every non-singular base: the exchange of columns comes to an end, and what is returned is a reduced base of the lattice, in the same orientation, whose first vector is at most 2^((n-1)/2) times as long as the shortest lattice vector.", "quantifier": "every non-singular real matrix, every dimension", "why_tests_cant": "Termination of a loop whose number of rounds is unbounded over the inputs; a test sees the rounds of the bases it tries.", "anchors": ["structrans/crystallography/lattice_reduction.py:LLL", "structrans/crystallography/lattice_reduction.py:Gauss_reduction", "structrans/crystallography/lattice_reduction.py:swapping"]}
{"id": "C85", "title": "The sublattice search returns the best correspondences", "statement": "lat_cor (sublattice version), called with two lattices, returns after finite time, for any number of worker processes and any order in which they finish, a list of lattice correspondences with volume change within the threshold, sorted by distance, no two of them equivalent under the symmetries of the two lattices, each with its own distance, stretch and eigenvalues; and no correspondence within the threshold that is as good as a returned one and not equivalent to a returned one is left out.", "quantifier": "every pair of accepted Bravais lattices, every option, every completion order of the workers", "why_tests_cant": "The result combines enumeration, symmetry reduction, a search in every sublattice and a merge in the order of arrival; a test fixes the lattices and sees one order.", "anchors": ["structrans/marttrans/lat_cor/main_hnf.py:lat_cor", "structrans/marttrans/lat_cor/main_hnf.py:reduce_hnfs", "structrans/marttrans/lat_cor/lat_opt.py:lat_opt"]}
{"id": "C86", "title": "A Solver starts with the best of the matrices it has drawn", "statement": "A Solver made for two lattices, after load_input, gives with initialize at least nsol lattice correspondences: the best ones, up to symmetry, of all matrices drawn, sorted, each with its own distance, and the largest distance among them. Batches of further candidates given to update_sol leave the best ones of everything seen so far.", "quantifier": "every pair of accepted lattices, every history of calls, every sequence of random matrices, every sequence of batches", "why_tests_cant": "The draws are random and the number of batches is unbounded; a test sees a few draws.", "anchors": ["structrans/marttrans/lat_cor/solver.py:Solver", "structrans/marttrans/lat_cor/solver.py:initialize", "structrans/marttrans/lat_cor/solver.py:load_input"]}
{"id": "C87", "title": "Rounding errors cannot make the direct search return a clearly worse correspondence", "statement": "If the distances are computed with a small relative error, so that even equivalent correspondences get slightly different ones, and the search radius with a small relative error, the direct search still ends, still returns inequivalent correspondences sorted by computed distance, and leaves out no correspondence that is better than a returned one by more than the errors of the two distances.", "quantifier": "every pair of lattices, every error bound, every assignment of errors to the correspondences, every sequence of trial matrices, every number of solutions and slice size", "why_tests_cant": "The rounding errors depend on the platform and on the matrix; a test sees one assignment of errors.", "anchors": ["structrans/marttrans/lat_cor/main_direct.py:lat_cor", "structrans/marttrans/lat_cor/main_direct.py:_add_sol", "structrans/marttrans/lat_cor/main_direct.py:rmax"]}
{"id": "C88", "title": "Small errors in the base vectors do not change the symmetry groups", "statement": "If the base of a lattice is known only up to a small error (rounded lattice parameters, cos(120 degrees) in floating point), Laue_group, point_group, special_lattice_group and lattice_group return exactly the groups of the exact lattice, provided no other candidate symmetry almost fits.", "quantifier": "every base in two and three dimensions, every error matrix below the bound", "why_tests_cant": "The errors are arbitrary real matrices; a test tries a few.", "anchors": ["structrans/crystallography/lattice.py:Laue_group", "structrans/crystallography/lattice.py:point_group", "structrans/crystallography/lattice.py:special_lattice_group", "structrans/crystallography/lattice.py:lattice_group"]}
{"id": "C89", "title": "Lattice reduction commutes with rotations, reflections and scalings", "statement": "Reducing a lattice base after rotating, reflecting or uniformly scaling it gives the rotated, reflected or scaled reduced base: the reduction depends only on the shape of the lattice, not on its orientation or unit of length.", "quantifier": "every dimension, every non-singular base, every similarity transformation", "why_tests_cant": "The transformation and the base are arbitrary real matrices, and the reduction takes up to a thousand data dependent steps.", "anchors": ["structrans/crystallography/lattice_reduction.py:LLL", "structrans/crystallography/lattice_reduction.py:Gauss_reduction", "structrans/crystallography/lattice_reduction.py:swapping", "structrans/crystallography/lattice_reduction.py:projection", "structrans/crystallography/lattice_reduction.py:Gram_Schmidt"]}
{"id": "C90", "title": "Results do not depend on the unit of length", "statement": "Multiplying all lengths among the lattice parameters of both phases by one positive factor (angstrom to nanometre, say) only scales the bases: the symmetry groups are the same, and lat_cor and lat_cor_hnf return the same solutions with the same correspondences, distances, stretch tensors and stretches, or raise the same exception. Integer parameters under Python 2 are excepted, because there the base vectors are floor-divided.", "quantifier": "every pair of Bravais lattices in two and three dimensions with any parameters, every positive factor, all options, every outcome of the external routines and every schedule of the processes", "why_tests_cant": "Parameters, factor and random or numerical routines range over infinite domains.", "anchors": ["structrans/crystallography/bravais_lattice.py:BravaisLattice", "structrans/crystallography/lattice.py:Laue_group", "structrans/crystallography/lattice.py:point_group", "structrans/crystallography/lattice.py:special_lattice_group", "structrans/crystallography/lattice.py:lattice_group", "structrans/marttrans/lat_cor/dist.py:Cauchy_dist", "structrans/marttrans/lat_cor/lat_opt.py:lat_opt", "structrans/marttrans/lat_cor/main_direct.py:lat_cor", "structrans/marttrans/lat_cor/main_hnf.py:lat_cor"]}
{"id": "C91", "title": "The variant one starts from does not matter", "statement": "Replacing the stretch U of a Martensite by one of its variants Q U Q^T, Q in the Laue group of the parent, changes neither the answer of isreversible nor, apart from the order, the list of variants.", "quantifier": "every stretch, every finite group of rotations, every element of the group", "why_tests_cant": "The stretch and the rotation range over infinite domains and the answer depends on the orientation in exceptional cases only.", "anchors": ["structrans/marttrans/martensite.py:Martensite.isreversible", "structrans/marttrans/martensite.py:Martensite.getvariants", "structrans/marttrans/martensite.py:Martensite.calcvariants", "structrans/crystallography/lattice.py:Laue_group"]}
{"id": "C92", "title": "The printed report says what the solutions contain", "statement": "Reading the numbers of the text that lat_cor prints gives back, solution by solution and line by line, the number of the solution and the number asked for, the columns of the correspondence, the rows of the stretch, the Hermite normal form, the principal stretches and the distance: the correspondence exactly, the stretch up to half a unit of the sixth digit after the point, the other numbers up to half a unit of the sixth significant digit (integers below a million exactly).", "quantifier": "all lists of solutions, all real entries; for the correspondence all lattices and all runs that return", "why_tests_cant": "Text formatting has special cases for carries, exponents, signs and trailing zeros, and the entries are arbitrary reals.", "anchors": ["structrans/marttrans/lat_cor/main_direct.py:_sols_tostr", "structrans/marttrans/lat_cor/main_hnf.py:_sols_tostr", "structrans/marttrans/lat_cor/main_direct.py:lat_cor", "structrans/marttrans/lat_cor/main_hnf.py:lat_cor"]}
{"id": "C93", "title": "The twin analysis does not depend on the frame", "statement": "If all stretches are written in a frame turned by an orthogonal matrix Q, then isCompatible, istwinnable, iscompound, istypeI, XI, XII, the cofactor quantities and the volume fractions are unchanged, and the twin axes, rank-one solutions, rotations and habit planes are the original ones carried by Q, up to order and sign. isCompatible also ignores rotations of either deformation and a common deformation of the reference configuration. None of this depends on which eigenvectors the eigenvalue routine picks.", "quantifier": "all orthogonal Q, all symmetric stretches, all eigenvalue routines that keep the promises of numpy", "why_tests_cant": "Frames and stretches form continua, and the code works with eigenvectors whose signs and order are arbitrary.", "anchors": ["structrans/marttrans/Compatibility.py:isCompatible", "structrans/marttrans/Compatibility.py:AM_Solver", "structrans/util/utils.py:solve_rank1", "structrans/marttrans/twin.py:TwinPair.istwinnable", "structrans/marttrans/twin.py:TwinPair.ax", "structrans/marttrans/twin.py:TwinPair.XI", "structrans/marttrans/twin.py:TwinPair.volumefrac", "structrans/marttrans/twin.py:_solve_am"]}
{"id": "C94", "title": "The results do not depend on how the crystals are turned in space", "statement": "Turning or reflecting the bases of the two lattices, each by its own orthogonal matrix, changes neither the three distances nor the quartic polynomial of the search radius nor the correspondences and distances that lat_opt returns; turning two lattices together does not change whether they compare equal; the integer symmetry groups of a turned lattice are the same.", "quantifier": "all orthogonal matrices, all bases, all eigenvalue routines that keep the promises of numpy, all keyword arguments", "why_tests_cant": "Bases and orientations form continua, and the program starts from tables that are tied to the axes of the frame.", "anchors": ["structrans/marttrans/lat_cor/dist.py:Eric_dist", "structrans/marttrans/lat_cor/dist.py:strain_dist", "structrans/marttrans/lat_cor/dist.py:Cauchy_dist", "structrans/marttrans/lat_cor/lat_opt.py:lat_opt", "structrans/crystallography/lattice.py:Lattice.__eq__", "structrans/crystallography/lattice.py:Lattice.Laue_group", "structrans/crystallography/lattice.py:Lattice.special_lattice_group"]}
{"id": "C95", "title": "lat_cor depends only on the two crystals, not on the cells that describe them, nor on chance", "statement": "Two finished calls of lat_cor for the same two crystals return the same distances, position by position, and the same correspondences up to symmetry, although the crystals may be described by different lattice types, parameters and orientations, and the random numbers, slice sizes, numbers of solutions and interpreters may differ. Two bases of the same set of points have the same Laue_group and point_group.", "quantifier": "all pairs of bases that generate the same points up to an orthogonal map, all random draws, all keyword arguments", "why_tests_cant": "The runs are random and the descriptions of a crystal infinitely many; a test compares a few runs.", "anchors": ["structrans/marttrans/lat_cor/main_direct.py:lat_cor", "structrans/crystallography/lattice.py:Lattice.Laue_group", "structrans/crystallography/lattice.py:Lattice.point_group", "structrans/crystallography/bravais_lattice.py:BravaisLattice.__init__"]}
{"id": "C96", "title": "The stretches that lat_cor reports depend only on the crystals and can be used for Martensite", "statement": "The stretch tensor of every solution returned by a three-dimensional lat_cor call is accepted by Martensite.setU and given back by getU. Solutions that are equivalent by the symmetries of the two lattices have the same principal stretches and, with the Laue group of the first lattice, the same variants. Two finished calls for the same two crystals, however these are described, report the same principal stretches.", "quantifier": "all returned solutions, all equivalent correspondences, all descriptions of two crystals, all random draws and keyword arguments", "why_tests_cant": "The solution that is returned first depends on the random numbers; a test looks at a few runs and a few cells.", "anchors": ["structrans/marttrans/lat_cor/main_direct.py:lat_cor", "structrans/marttrans/martensite.py:Martensite.setU", "structrans/marttrans/martensite.py:Martensite.getU", "structrans/marttrans/martensite.py:Martensite.getvariants", "structrans/crystallography/lattice.py:Lattice.Laue_group"]}
{"id": "C97", "title": "The distance and the principal stretches reported for a solution say the same", "statement": "For every solution that lat_cor returns, the reported distance is the sum over the reported principal stretches lambda of (1/lambda^2 - 1)^2; there are as many of them as dimensions and all are positive; their product times the volume of the transformed parent cell is the volume of the product cell; the distance is zero exactly if the stretch tensor is the identity.", "quantifier": "all pairs of accepted lattices without near-symmetries, all options in their documented range, all random draws, all runs that return", "why_tests_cant": "The numbers come from two separate computations, the search and the final report; a test compares them for a few lattices only.", "anchors": ["structrans/marttrans/lat_cor/main_direct.py:lat_cor", "structrans/marttrans/lat_cor/dist.py:Cauchy_dist"]}
{"id": "C98", "title": "lat_cor reports the distance zero exactly if one crystal is a sublattice of the other", "statement": "The first solution returned by lat_cor has the distance zero exactly if the product lattice, turned or reflected, is a sublattice of the parent lattice. The distance is zero in both directions exactly if the two lattices are the same up to a turn or reflection.", "quantifier": "all pairs of accepted lattices without near-symmetries, all options in their documented range, all random draws, all finished runs with harmless checkpoints", "why_tests_cant": "Whether some correspondence among infinitely many has distance zero is not visible from one run.", "anchors": ["structrans/marttrans/lat_cor/main_direct.py:lat_cor", "structrans/marttrans/lat_cor/dist.py:Cauchy_dist"]}
{"id": "C99", "title": "From face-centred to body-centred cubic lat_cor finds the Bain correspondence", "statement": "For a face-centred cubic parent with edge a and a body-centred cubic product with edge b < sqrt(3)/2 a, the first solution of lat_cor is the one of Bain: the stretch tensor is diagonal with b/a along one cube axis and sqrt(2) b/a along the other two, the printed principal stretches and distance are the corresponding numbers, and the printed correspondence takes one cube edge and two half face diagonals across it to the cube edges of the product.", "quantifier": "all edges a, b > 0 with b < sqrt(3)/2 a, all options in their documented range, both tolerances, all random draws, all finished runs with harmless checkpoints", "why_tests_cant": "It claims that infinitely many correspondences, for a continuum of edges, are all worse; a test looks at a few of them.", "anchors": ["structrans/marttrans/lat_cor/main_direct.py:lat_cor", "structrans/crystallography/bravais_lattice.py:BravaisLattice"]}
{"id": "C100", "title": "lat_cor maps edges to edges for a slightly distorted cubic lattice", "statement": "For a primitive cubic parent with edge a and a primitive orthorhombic product with edges between 89.5 % and 115 % of a, the first solution of lat_cor has the diagonal stretch tensor with the ratios of the edges, in some order, and the sum of ((a/e)^2-1)^2 as its distance. In two dimensions the same for a square parent and a rectangular product.", "quantifier": "all edges in that range, all options in their documented range, all random draws, all finished runs with harmless checkpoints", "why_tests_cant": "It claims that infinitely many correspondences, for a continuum of edges, are all worse; a test looks at a few of them.", "anchors": ["structrans/marttrans/lat_cor/main_direct.py:lat_cor", "structrans/crystallography/bravais_lattice.py:BravaisLattice"]}
{"id": "C101", "title": "A cubic to tetragonal transformation has three variants and compound twins on {110}", "statement": "For a Martensite with the stretch diag(a, a, c), a and c clearly different, getvariants() returns exactly the three stretches along the cube axes. Every pair of them is twinnable and compound, and twinparam() returns two solutions, with the planes e_i + e_j and e_i - e_j and the shears sqrt(2) (a^2-c^2)/(a^2+c^2) (c e_i -+ a e_j), up to order, sign and rounding. In particular the stretch of the first solution of lat_cor from face-centred to body-centred cubic has three variants, the Bain stretches along the three axes.", "quantifier": "all stretches a and c that are clearly different, all three axes, all pairs of variants, all eigenvector choices of la.eig", "why_tests_cant": "A continuum of stretches and every sign and order of eigenvectors that la.eig may return; the claim that there is no fourth variant and no third twin cannot be tested by examples.", "anchors": ["structrans/marttrans/martensite.py:Martensite.calcvariants", "structrans/marttrans/twin.py:TwinPair.twinparam", "structrans/marttrans/twin.py:TwinPair.iscompound", "structrans/marttrans/twin.py:_solvetwin", "structrans/marttrans/lat_cor/main_direct.py:lat_cor"]}
{"id": "C102", "title": "Laminates of cubic to tetragonal variants: volume fractions and habit planes", "statement": "For the pair of variants of a cubic to tetragonal transformation with the stretches a across and c along the axis, iscompatible() is true exactly if some twinned laminate can meet the cubic parent, that is if a < 1 < c and 1/a^2 + 1/c^2 <= 2, or c < 1 < a and a^2 + c^2 <= 2. Then volumefrac() returns 1/2 + sqrt(1/4 - (a^2-1)(1-c^2)(a^2+c^2)/(2(a^2-c^2)^2)) for both twins, and habitplanes() returns exactly the habit planes of the laminates.", "quantifier": "all stretches a and c that are clearly different, all pairs of variants, all twin types, all eigenvector choices of la.eig", "why_tests_cant": "The criterion is an equivalence over a continuum of stretches and fractions; that a laminate with no fraction at all can meet the parent, or that no further habit plane exists, cannot be tested by examples.", "anchors": ["structrans/marttrans/twin.py:TwinPair.volumefrac", "structrans/marttrans/twin.py:TwinPair.iscompatible", "structrans/marttrans/twin.py:TwinPair.habitplanes", "structrans/marttrans/twin.py:_solve_f", "structrans/marttrans/twin.py:_solve_am"]}
{"id": "C103", "title": "twinparam finds every twin, and the order of the two variants does not matter", "statement": "For two variants that form a twin, every solution (Q, a, n) of the twinning equation Q Uj - Ui = a n is one of the two that twinparam() returns, up to the sign of a and n and rounding, and their two planes are perpendicular. TwinPair(Uj, Ui) describes the same twins as TwinPair(Ui, Uj): inverse rotations, the same planes, opposite shears, the same volume fractions, the same iscompound(), and habitplanes() returns the same list up to order.", "quantifier": "all pairs of symmetry-related stretches that form a twin and are listed as variants of each other, all twin types, all eigenvector choices of la.eig", "why_tests_cant": "That no further solution exists is a statement about all rotations and vectors; the symmetry must hold for every pair of stretches, whichever axis the code finds first.", "anchors": ["structrans/marttrans/twin.py:TwinPair.twinparam", "structrans/marttrans/twin.py:TwinPair.volumefrac", "structrans/marttrans/twin.py:TwinPair.habitplanes", "structrans/marttrans/twin.py:TwinPair.iscompound", "structrans/marttrans/twin.py:_solvetwin"]}
{"id": "C104", "title": "Cubic to orthorhombic: six variants, and which pairs are compound", "statement": "For a stretch by beta along a cube axis and by alpha and gamma along the two face diagonals across it, where the three factors are between 0.8 and 1.25 and differ by at least 0.01, setU(a, b, c) with a = (alpha + gamma)/2, b = (alpha - gamma)/2, c = beta accepts it, getvariants() returns exactly the six stretches of this form, any two of the six are twinnable, iscompound() is true exactly for the three pairs with the same cube axis, whose twins have the cube planes through that axis, and for the other twelve pairs the twin of type I has a plane of the family 110, the twin of type II has as shear the image of the normal of that plane, and no further twins exist.", "quantifier": "all values of the three factors in that range, all six stretches and all ordered pairs of them, all eigenvector choices of la.eig", "why_tests_cant": "The factors range over reals; that the symmetry tests and the axis test against 1e-12 never misfire must hold for all of them, and that no further twin exists is a statement about all rotations.", "anchors": ["structrans/marttrans/martensite.py:Martensite.setU", "structrans/marttrans/martensite.py:Martensite.getvariants", "structrans/marttrans/twin.py:TwinPair.istwinnable", "structrans/marttrans/twin.py:TwinPair.iscompound", "structrans/marttrans/twin.py:TwinPair.twinparam"]}
{"id": "C105", "title": "Cubic to monoclinic: twelve variants, and which pairs can form twins", "statement": "For a stretch with p, q, d on the diagonal and r between the first two axes, where p, q and d are between 0.8 and 1.25, p and q differ by at least 0.01 and the size of r is between 0.01 and 0.2, setU(p, r, q, d) accepts it and getvariants() returns exactly the twelve stretches of this form. A pair with the same third axis is twinnable and compound. A pair where one of the first two axes is exchanged with the third is twinnable, not compound, with a twin of type I on a plane of the family 110, provided d is not nearly a principal stretch of the other two. A pair related only by three-fold rotations has no twin unless d is such a stretch, and istwinnable() is false for it when d is clearly not. In all twinnable pairs the two twins of twinparam() are the only ones.", "quantifier": "all p, q, r, d in that range, all twelve stretches and all ordered pairs of them, all eigenvector choices of la.eig", "why_tests_cant": "The entries range over reals; that no twin exists is a statement about all rotations, and that the tolerances 1e-12 and 5e-3 of the code do not change the answer must hold for all values.", "anchors": ["structrans/marttrans/martensite.py:Martensite.setU", "structrans/marttrans/martensite.py:Martensite.getvariants", "structrans/marttrans/twin.py:TwinPair.istwinnable", "structrans/marttrans/twin.py:TwinPair.iscompound", "structrans/marttrans/twin.py:TwinPair.twinparam"]}
{"id": "C106", "title": "The twin system of a transformation has the known numbers of twin pairs", "statement": "A TwinSystem made from the Martensite object of a clearly tetragonal stretch of a cubic crystal lists 3 twin pairs, all compound; of a clearly orthorhombic one 15 twin pairs, 3 compound and 12 of type I and II; of a monoclinic one with its axis along a cube axis and without a nearly repeated stretch 42 twin pairs, 18 compound and 24 of type I and II. TwinTable(), getCompound() and getTypeI() return lists of these lengths after any sequence of calls, and getConventional() returns all pairs as long as isconventional() is only called with the group of the system.", "quantifier": "all stretches of the three families, all variants as starting point, all sequences of calls, all eigenvector choices of la.eig", "why_tests_cant": "The stretches range over reals and the histories are unbounded; a test can only count for single alloys and single histories.", "anchors": ["structrans/marttrans/martensite.py:Martensite.getvariants", "structrans/marttrans/twin.py:TwinSystem.TwinTable", "structrans/marttrans/twin.py:TwinSystem.getCompound", "structrans/marttrans/twin.py:TwinSystem.getTypeI", "structrans/marttrans/twin.py:TwinSystem.getConventional"]}
{"id": "C107", "title": "Every small stretch of a cubic crystal gives a reversible martensite whose variants are its images", "statement": "For every symmetric stretch whose rows differ from those of the identity by at most 0.13, Martensite().setU(U) accepts it, the Laue group of the lattice with that base is the set of rotations of the cube that leave the stretch unchanged, isreversible() is true, getvariants() is the list of all images of the stretch under the rotations of the cube, without repetition and the stretch first, getLaueidx() says which rotations lead to which variant, and the number of variants times the order of the Laue group is 24.", "quantifier": "all symmetric stretches with row sums of differences at most 0.13 and, for the tolerances of the code, each rotation fixing the stretch or changing an entry by at least 0.0001", "why_tests_cant": "The stretches fill an open set of a six dimensional space and a wrong symmetry can appear for a thin set of them only.", "anchors": ["structrans/marttrans/martensite.py:Martensite.setU", "structrans/marttrans/martensite.py:Martensite.isreversible", "structrans/marttrans/martensite.py:Martensite.getvariants", "structrans/marttrans/martensite.py:Martensite.getLaueidx", "structrans/crystallography/lattice.py:Lattice.Laue_group"]}
{"id": "C108", "title": "Cubic to monoclinic transformations of the Ni-Ti kind: twelve variants, 42 twin pairs, 6 compound and 36 of type I and II", "statement": "For every stretch with one cube axis distinguished and the monoclinic two-fold axis along a face diagonal (g at the axis i, a at the other two, e beside i, d between the other two, signs s), getvariants() has twelve elements, one for each axis and choice of signs up to a common one. Two variants with the same axis that differ in the sign at it are twinnable and compound; with the same axis and a different sign at another axis j they have twins of type I and II, the former with the cube face of j as plane; with different axes and the signs at these equal up to a common one they have twins of type I and II with a face diagonal plane; with these signs not so they are rank-one connected only if the stretch along the two-fold axis is a repeated one, and otherwise not twinnable. twinparam() returns all solutions of the twinning equation up to rounding. TwinSystem has 42 pairs, 6 compound, 36 of type I, all of them conventional.", "quantifier": "all stretches of the family whose rows differ from those of the identity by at most 0.13, with e and g - a at least 0.01 in absolute value and bounds away from repeated principal stretches, all signs, axes, roundings, histories of calls on the system", "why_tests_cant": "The family has four real parameters and the classification has to hold for all of them and for each of the 66 pairs.", "anchors": ["structrans/marttrans/martensite.py:Martensite.getvariants", "structrans/marttrans/twin.py:TwinPair.istwinnable", "structrans/marttrans/twin.py:TwinPair.iscompound", "structrans/marttrans/twin.py:TwinPair.istypeI", "structrans/marttrans/twin.py:TwinPair.twinparam", "structrans/marttrans/twin.py:TwinSystem.TwinTable", "structrans/marttrans/twin.py:TwinSystem.getCompound", "structrans/marttrans/twin.py:TwinSystem.getTypeI", "structrans/marttrans/twin.py:TwinSystem.getConventional"]}
{"id": "C109", "title": "Cubic to trigonal transformations: four variants, each two of them compound twins with a cube face and a face diagonal plane", "statement": "For every stretch with a on the diagonal and e off it, with the signs of a space diagonal s, getvariants() has four elements, one for each space diagonal, the given one first. Each two are twinnable and compound: twinparam() returns, up to rounding, one twin with the cube face of the axis at which the diagonals differ as plane and one with a face diagonal plane that contains this axis, and these are all the solutions of the twinning equation up to the sign of shear and normal. TwinSystem has six pairs, all compound and conventional.", "quantifier": "all a, e with rows within 0.13 of those of the identity and e at least 0.005 in absolute value, all signs, roundings, eigenvalue routines that meet their contract", "why_tests_cant": "The family has two real parameters and the claim has to hold for all of them and for every pair.", "anchors": ["structrans/marttrans/martensite.py:Martensite.getvariants", "structrans/marttrans/twin.py:TwinPair.istwinnable", "structrans/marttrans/twin.py:TwinPair.iscompound", "structrans/marttrans/twin.py:TwinPair.istypeI", "structrans/marttrans/twin.py:TwinPair.twinparam", "structrans/marttrans/twin.py:TwinSystem.TwinTable", "structrans/marttrans/twin.py:TwinSystem.getCompound"]}
{"id": "C110", "title": "Cubic to orthorhombic along the cube axes: six variants and nine compound twins", "statement": "For every diagonal stretch with three different entries, getvariants() has six elements, one for each order of the entries, the given one first. Two variants that differ by the exchange of the entries at two axes j and k are twinnable and compound, with the planes (110) and (1-10) of these axes, and twinparam() returns these two solutions up to rounding and sign and there is no other. Two variants without a common entry are not rank-one connected and not twinnable. TwinSystem has nine pairs, all compound and conventional.", "quantifier": "all triples of stretches within 13 per cent of one and at least 0.01 apart, all pairs of variants, all roundings and histories of calls on the system", "why_tests_cant": "The family has three real parameters and the claim has to hold for all of them and for each of the 15 pairs.", "anchors": ["structrans/marttrans/martensite.py:Martensite.getvariants", "structrans/marttrans/twin.py:TwinPair.istwinnable", "structrans/marttrans/twin.py:TwinPair.iscompound", "structrans/marttrans/twin.py:TwinPair.twinparam", "structrans/marttrans/twin.py:TwinSystem.TwinTable", "structrans/marttrans/twin.py:TwinSystem.getCompound"]}
{"id": "C111", "title": "From lattice parameters to twins: the first solution of lat_cor can be used for Martensite and TwinSystem and has the twins of the transformation", "statement": "For a finished call of lat_cor with a primitive cubic parent and a primitive orthorhombic or tetragonal product with slightly different edges, or with a face-centred cubic parent and a body-centred cubic product, the stretch tensor of the first solution is accepted by setU of a new Martensite object, is the first of six (orthorhombic) or three (tetragonal, Bain) variants, and TwinSystem of the object lists nine or three twin pairs, all of them compound.", "quantifier": "all edges within ten per cent of that of the parent and equal or at least one per cent apart, for Bain all edges b between a/1000 and sqrt(3)/2 a, all options in their documented range, all random draws, all eigenvector choices of la.eig, all finished runs with harmless checkpoints", "why_tests_cant": "It connects an unbounded search, the symmetry detection, the variants and the twin analysis for all lattice parameters in a range.", "anchors": ["structrans/marttrans/lat_cor/main_direct.py:lat_cor", "structrans/marttrans/martensite.py:Martensite.setU", "structrans/marttrans/martensite.py:Martensite.getvariants", "structrans/marttrans/twin.py:TwinSystem.TwinTable", "structrans/marttrans/twin.py:TwinSystem.getCompound"]}
{"id": "C112", "title": "Every small stretch of a cubic lattice has the twins of the nine half turns, isconventional() recognises exactly these, and they connect all variants", "statement": "Let a half turn of the cube carry a variant to another one. Then the pair is twinnable and the plane normal to the axis solves the twinning equation. For two different variants isconventional() without argument is true exactly if such a half turn exists. TwinTable() of the twin system lists all these pairs after any calls, and getConventional() returns all positions of the table. Each two variants are linked by at most two such twins.", "quantifier": "all small stretches without approximate symmetry, all pairs of variants, all eigenvector choices, all histories of calls on the system (for getConventional: without isconventional calls with a foreign group)", "why_tests_cant": "The stretch has six real parameters, so that tests cover single alloys only.", "anchors": ["structrans/marttrans/martensite.py:Martensite.getvariants", "structrans/marttrans/twin.py:TwinPair.istwinnable", "structrans/marttrans/twin.py:TwinPair.isconventional", "structrans/marttrans/twin.py:TwinSystem.TwinTable", "structrans/marttrans/twin.py:TwinSystem.getConventional"]}
{"id": "C113", "title": "The types of the twins of any small stretch of a cubic lattice", "statement": "Let a half turn about the unit vector n carry a variant V to another one W, and let y be the direction perpendicular to n whose image under V is perpendicular to the image of n. If y is clearly no principal direction of V, then istwinnable() is true, iscompound() is false, istypeI() is true, and twinparam() returns, up to rounding and sign, exactly the twin with plane normal n and the twin with shear direction V n. If y is a principal direction, then iscompound() is true and twinparam() returns exactly the two twins with plane normals n and n x y.", "quantifier": "all small stretches without approximate symmetry, all pairs of variants, all axes n, all roundings, all eigenvector choices", "why_tests_cant": "A stretch has six real parameters and each pair has its own axis; tests cover single alloys only.", "anchors": ["structrans/marttrans/martensite.py:Martensite.getvariants", "structrans/marttrans/twin.py:TwinPair.istwinnable", "structrans/marttrans/twin.py:TwinPair.iscompound", "structrans/marttrans/twin.py:TwinPair.istypeI", "structrans/marttrans/twin.py:TwinPair.twinparam", "structrans/marttrans/twin.py:TwinPair.ax"]}
{"id": "C114", "title": "Cofactor conditions for every small stretch of a cubic lattice", "statement": "For a pair of variants V, W with the twin axis n that is clearly not compound, XI() is the length of V^-1 n and XII() that of V n. If V leaves a direction unstretched, the values of direct_cof() are, up to 1e-9, minus those of V a . cof(V^2 - I) n for the two exact twins; the first exact value vanishes iff XI() is one iff the laminates of the first twin fit the parent at every volume fraction; the second one iff XII() is one iff the laminates of the second twin do.", "quantifier": "all small stretches without approximate symmetry, all pairs of variants, all axes, all volume fractions, all eigenvector choices", "why_tests_cant": "The equivalence is between one number and a condition at every volume fraction, for a six-parameter family of stretches.", "anchors": ["structrans/marttrans/twin.py:TwinPair.XI", "structrans/marttrans/twin.py:TwinPair.XII", "structrans/marttrans/twin.py:TwinPair.direct_cof", "structrans/marttrans/twin.py:TwinPair.twinparam", "structrans/marttrans/martensite.py:Martensite.getvariants"]}
{"id": "C115", "title": "Accuracy of the twins of every small stretch of a cubic lattice", "statement": "For two variants with a twin axis, compound or clearly not, twinparam() returns two solutions (Q, a, n) that satisfy the twinning equation exactly and differ from two exact solutions by at most 5e-11 in the components of a and n and 1e-9 in the entries of Q. Hence Q is orthogonal up to 1e-8 and the length of n is one up to 1e-9. Every exact solution is, up to the signs of a and n, one of the two approximated.", "quantifier": "all small stretches without approximate symmetry, all pairs of variants with an axis, all eigenvector choices, all roundings within half a unit of the tenth decimal", "why_tests_cant": "The error of Q comes from the product of two rounded vectors and an inverse, and the bound is over a six-parameter family.", "anchors": ["structrans/marttrans/twin.py:TwinPair.twinparam", "structrans/marttrans/martensite.py:Martensite.getvariants"]}
{"id": "C116", "title": "Accuracy of the volume fractions of every small stretch of a cubic lattice", "statement": "For two variants with a twin axis, compound or clearly not, volumefrac() answers for the two exact twins: a returned fraction lies in [0,1] and makes the interface determinant of the exact twin at most 1e-9 (fractions within 1e-6 of one are returned as one, and zero is returned if the determinant varies by at most 1e-9); a fraction that makes the determinant vanish and is d away from 1/2 and 1 is returned up to 2e-10/(s d), where s is the variation of the determinant. For tetragonal stretches the closed formula is returned up to that error for both twins.", "quantifier": "all small stretches without approximate symmetry, all pairs of variants with an axis, all eigenvector choices, all roundings within half a unit of the tenth decimal, all margins d", "why_tests_cant": "The error grows without bound towards the fraction 1/2, so that no sample of stretches bounds it.", "anchors": ["structrans/marttrans/twin.py:TwinPair.volumefrac", "structrans/marttrans/twin.py:_solve_f", "structrans/marttrans/twin.py:TwinPair.twinparam", "structrans/marttrans/martensite.py:Martensite.getvariants"]}
{"id": "C117", "title": "If the middle stretch is not exactly one, the habit-plane solvers return best approximations", "statement": "For every symmetric positive-definite C with eigenvalues l1 <= l2 <= l3 and l1 <= 1 <= l3, the two pairs (b, m) of solve_rank1, AM_Solver (if |l2 - 1| < 1e-4, else nothing) and _solve_am have |m| = 1, and the squared lengths under I + b(x)m differ from those prescribed by C by at most |1 - l2| times the squared length; no b and m do better. The matrices R of _solve_am satisfy R C^1/2 = I + b(x)m, preserve orientation and change squared lengths by at most the factor |1 - l2|/l1.", "quantifier": "all positive definite symmetric matrices with 1 between the extreme eigenvalues, all competing pairs, all directions, all eigenvector choices", "why_tests_cant": "Computed metrics never have the eigenvalue one exactly, and optimality is over all pairs of vectors.", "anchors": ["structrans/util/utils.py:solve_rank1", "structrans/marttrans/Compatibility.py:AM_Solver", "structrans/marttrans/twin.py:_solve_am"]}
{"id": "C118", "title": "habitplanes() is accurate in spite of the rounding in twinparam()", "statement": "For a cubic parent, a stretch within 13 per cent of one and any two of its variants with a twin axis (compound or types I and II): whenever volumefrac() gives two fractions strictly between 0 and 1 and the exact laminates with these fractions shorten some vectors and lengthen some by at least g in the squared length (g >= 0.002), habitplanes() returns eight triples (R, b, m), two for each twin and each of the fractions f and 1 - f. In each, |m| = 1, I + b(x)m stretches every direction as the exact laminate does up to 1e-9/g^2 + 1e-7 in the squared length, and R, a rotation up to ten times this error, carries the stretch of the laminate to I + b(x)m. The two planes of a laminate are different, and every plane on which some I + b(x)m agrees with the laminate up to d0 is near to one of them: the sine of the angle is at most 6(1e-9/g^2 + 1e-7 + d0)/g. For tetragonal stretches the conditions are inequalities between the two stretches, and the fractions are those of the closed formula up to 2e-10/(s d).", "quantifier": "all small stretches with a clear symmetry, all pairs of variants, all directions, all roundings with error at most 5e-11, all eigenvector choices", "why_tests_cant": "The error has to be bounded for all stretches and all directions at once; a test compares a few numbers.", "anchors": ["structrans/marttrans/twin.py:TwinPair.habitplanes", "structrans/marttrans/twin.py:TwinPair.volumefrac", "structrans/marttrans/twin.py:TwinPair.twinparam", "structrans/marttrans/twin.py:_solve_am"]}
{"id": "C119", "title": "TwinPair and the habit-plane solvers refuse what is not a stretch", "statement": "TwinPair(Ui, Uj) accepts exactly the pairs of symmetric positive-definite matrices and raises ValueError otherwise, unless skipcheck is given, in which case only a singular Ui is refused; solve_rank1 and _solve_am raise TypeError, and AM_Solver CompatibilityError, for everything that is not a symmetric positive-definite matrix. Symmetry is tested up to 1e-6 (AM_Solver 1e-9). For an axis whose half turn carries the stretch to none of its variants, _solvetwin returns None instead of a meaningless twin, and two solutions for any other axis.", "quantifier": "all 3x3 matrices, all axes, all eigenvector choices", "why_tests_cant": "Refusal has to be known for every matrix; a test tries a few.", "anchors": ["structrans/marttrans/twin.py:TwinPair.__init__", "structrans/marttrans/twin.py:_solvetwin", "structrans/marttrans/twin.py:_isvariant", "structrans/marttrans/twin.py:_solve_am", "structrans/util/utils.py:pos_def_sym"]}
