import Verif.Props.LatCorHnf
import Verif.Props.Complete

/-!
# Property C85, the solutions that are left out

The search in a sublattice compares its results up to the symmetries of that sublattice, of which there may be
more than the lattice has.
-/

namespace Verif.Props

open Matrix Verif.Model Verif.Spec Verif.Lemmas

/-- A tetragonal lattice; its sublattice with doubled third vector is cubic. -/
noncomputable def tetraCell : Matrix (Fin 3) (Fin 3) ℝ := Matrix.diagonal ![1, 1, 1 / 2]

/-- An orthorhombic lattice, nearly cubic. -/
noncomputable def orthoCell : Matrix (Fin 3) (Fin 3) ℝ := Matrix.diagonal ![1, 21 / 20, 20 / 21]

noncomputable def orthoInv : Matrix (Fin 3) (Fin 3) ℝ := Matrix.diagonal ![1, 20 / 21, 21 / 20]

theorem tetraCell_det : tetraCell.det = 1 / 2 := by simp [tetraCell, Fin.prod_univ_three]

theorem orthoCell_det : orthoCell.det = 1 := by simp [orthoCell, Fin.prod_univ_three]

theorem orthoCell_inv : orthoCell⁻¹ = orthoInv := by
  apply Matrix.inv_eq_right_inv
  rw [orthoCell, orthoInv, Matrix.diagonal_mul_diagonal, ← Matrix.diagonal_one]
  congr 1
  ext i
  fin_cases i <;> norm_num

theorem tetra_constructs : ∃ C, Constructs .py3 6 (.list (.float [1, 1 / 2])) 3 tetraCell C := by
  obtain ⟨C, h⟩ := new_of_prim (py := .py3) (id := 6) (l := [1, 1 / 2]) (E := tetraCell) (by simp) (by norm_num)
    (by norm_num) (by decide) (by
      simp [primBase3, Nums.get, Nums.vals, tetraCell]
      ext i j; fin_cases i <;> fin_cases j <;> simp) (by rw [tetraCell_det]; norm_num)
  exact ⟨_, _, rfl, h, rfl, rfl⟩

theorem ortho_constructs : ∃ C, Constructs .py3 8 (.list (.float [1, 21 / 20, 20 / 21])) 3 orthoCell C := by
  obtain ⟨C, h⟩ := new_of_prim (py := .py3) (id := 8) (l := [1, 21 / 20, 20 / 21]) (E := orthoCell)
    (by simp) (by norm_num) (by norm_num) (by decide) (by
      simp [primBase3, Nums.get, Nums.vals, orthoCell]
      ext i j; fin_cases i <;> fin_cases j <;> simp)
    (by rw [orthoCell_det]; norm_num)
  exact ⟨_, _, rfl, h, rfl, rfl⟩

/-! ### The distance -/

theorem mismatch_gram (F : Matrix (Fin 3) (Fin 3) ℝ) :
    ∑ i, ∑ j, ((F * Fᵀ - 1) i j) ^ 2 = ∑ i, ∑ j, ((Fᵀ * F - 1) i j) ^ 2 := by
  simp only [Fin.sum_univ_three, Matrix.sub_apply, Matrix.mul_apply, Matrix.transpose_apply, Matrix.one_apply]
  simp
  ring

/-- the square of the length of a column of `tetraCell * L` -/
noncomputable def colSq (L : Z3) (j : Fin 3) : ℝ := ((4 * L 0 j ^ 2 + 4 * L 1 j ^ 2 + L 2 j ^ 2 : ℤ) : ℝ) / 4

theorem missed_F (L : Z3) : tetraCell * L.map (Int.cast : ℤ → ℝ) * orthoInv
    = Matrix.of fun i j => ![1, 1, 1 / 2] i * (L i j : ℝ) * ![1, 20 / 21, 21 / 20] j := by
  ext i j
  rw [tetraCell, orthoInv, Matrix.mul_diagonal, Matrix.diagonal_mul]
  rfl

theorem missed_le (L : Z3) : (colSq L 0 - 1) ^ 2 + (colSq L 1 * (400 / 441) - 1) ^ 2 +
    (colSq L 2 * (441 / 400) - 1) ^ 2 ≤ mismatch tetraCell orthoCell L := by
  unfold mismatch
  rw [mismatch_gram, orthoCell_inv, missed_F]
  set F : Matrix (Fin 3) (Fin 3) ℝ := Matrix.of fun i j => ![1, 1, 1 / 2] i * (L i j : ℝ) * ![1, 20 / 21, 21 / 20] j
    with hF
  have d0 : (Fᵀ * F - 1) 0 0 = colSq L 0 - 1 := by
    simp [Matrix.mul_apply, hF, Fin.sum_univ_three, colSq]; ring
  have d1 : (Fᵀ * F - 1) 1 1 = colSq L 1 * (400 / 441) - 1 := by
    simp [Matrix.mul_apply, hF, Fin.sum_univ_three, colSq]; ring
  have d2 : (Fᵀ * F - 1) 2 2 = colSq L 2 * (441 / 400) - 1 := by
    simp [Matrix.mul_apply, hF, Fin.sum_univ_three, colSq]; ring
  simp only [Fin.sum_univ_three]
  rw [d0, d1, d2]
  have := sq_nonneg ((Fᵀ * F - 1) 0 1)
  have := sq_nonneg ((Fᵀ * F - 1) 0 2)
  have := sq_nonneg ((Fᵀ * F - 1) 1 0)
  have := sq_nonneg ((Fᵀ * F - 1) 1 2)
  have := sq_nonneg ((Fᵀ * F - 1) 2 0)
  have := sq_nonneg ((Fᵀ * F - 1) 2 1)
  linarith

/-- The distance of the two correspondences below. -/
noncomputable def bestMissed : ℝ := (400 / 441 - 1) ^ 2 + (441 / 400 - 1) ^ 2

theorem quarter_near (n : ℤ) (c : ℝ) (h1 : 7 / 8 < c) (h2 : c < 9 / 8) : (1 - c) ^ 2 ≤ ((n : ℝ) / 4 - c) ^ 2 := by
  rcases lt_trichotomy n 4 with h | rfl | h
  · have : (n : ℝ) ≤ 3 := by exact_mod_cast Int.lt_add_one_iff.mp h
    nlinarith
  · norm_num
  · have : (5 : ℝ) ≤ n := by exact_mod_cast h
    nlinarith

theorem bestMissed_le (L : Z3) : bestMissed ≤ mismatch tetraCell orthoCell L := by
  refine le_trans ?_ (missed_le L)
  unfold colSq bestMissed
  have a0 := quarter_near (4 * L 0 1 ^ 2 + 4 * L 1 1 ^ 2 + L 2 1 ^ 2) (441 / 400) (by norm_num) (by norm_num)
  have a1 := quarter_near (4 * L 0 2 ^ 2 + 4 * L 1 2 ^ 2 + L 2 2 ^ 2) (400 / 441) (by norm_num) (by norm_num)
  have := sq_nonneg (((4 * L 0 0 ^ 2 + 4 * L 1 0 ^ 2 + L 2 0 ^ 2 : ℤ) : ℝ) / 4 - 1)
  nlinarith

/-- The base of the cubic sublattice, and the same with its vectors permuted. -/
def cubicSub : Z3 := !![1, 0, 0; 0, 1, 0; 0, 0, 2]

def cubicSub' : Z3 := !![0, 0, 1; 1, 0, 0; 0, 2, 0]

theorem cubicSub_dist : mismatch tetraCell orthoCell cubicSub = bestMissed ∧
    mismatch tetraCell orthoCell cubicSub' = bestMissed := by
  constructor
  · unfold mismatch bestMissed
    rw [mismatch_gram, orthoCell_inv, missed_F]
    simp [cubicSub, Matrix.mul_apply, Fin.sum_univ_three, Matrix.one_apply]
    norm_num
  · unfold mismatch bestMissed
    rw [mismatch_gram, orthoCell_inv, missed_F]
    simp [cubicSub', Matrix.mul_apply, Fin.sum_univ_three, Matrix.one_apply]
    norm_num

/-! ### The symmetries -/

theorem latticeSym_gram {E : Matrix (Fin 3) (Fin 3) ℝ} {M : Z3} (h : IsLatticeSym E M) :
    (E * toR M)ᵀ * (E * toR M) = Eᵀ * E := by
  obtain ⟨Q, hQ, e⟩ := h
  have e' : E * toR M = Q * E := e.symm
  rw [e', Matrix.transpose_mul]
  calc Eᵀ * Qᵀ * (Q * E) = Eᵀ * (Qᵀ * Q) * E := by simp only [Matrix.mul_assoc]
    _ = Eᵀ * E := by rw [show Qᵀ * Q = 1 from hQ, Matrix.mul_one]

theorem ortho_col {M : Z3} (h : IsLatticeSym orthoCell M) (j : Fin 3) :
    176400 * M 0 j ^ 2 + 194481 * M 1 j ^ 2 + 160000 * M 2 j ^ 2 = ![176400, 194481, 160000] j := by
  have := congrFun (congrFun (latticeSym_gram h) j) j
  have e : orthoCell * toR M = Matrix.of fun i j => ![1, 21 / 20, 20 / 21] i * (M i j : ℝ) := by
    ext a b
    rw [orthoCell, Matrix.diagonal_mul]
    rfl
  rw [e] at this
  have h2 : ((176400 * M 0 j ^ 2 + 194481 * M 1 j ^ 2 + 160000 * M 2 j ^ 2 : ℤ) : ℝ)
      = ((![176400, 194481, 160000] j : ℤ) : ℝ) := by
    fin_cases j <;> simp [Matrix.mul_apply, Fin.sum_univ_three, orthoCell] at this ⊢ <;> linarith
  exact_mod_cast h2

theorem small_int {x c : ℤ} (h : c * x ^ 2 ≤ 194481) (hc : 160000 ≤ c) : x = -1 ∨ x = 0 ∨ x = 1 := by
  have h1 : x ^ 2 < 4 := by nlinarith
  have h2 : -2 < x := by nlinarith
  have h3 : x < 2 := by nlinarith
  omega

/-- the symmetries of the orthorhombic lattice -/
theorem ortho_sym {M : Z3} (h : IsLatticeSym orthoCell M) :
    ∃ a b c : ℤ, (a = 1 ∨ a = -1) ∧ (b = 1 ∨ b = -1) ∧ (c = 1 ∨ c = -1) ∧ M = !![a, 0, 0; 0, b, 0; 0, 0, c] := by
  have key : ∀ x y z t : ℤ, 176400 * x ^ 2 + 194481 * y ^ 2 + 160000 * z ^ 2 = t → t ≤ 194481 →
      (x = -1 ∨ x = 0 ∨ x = 1) ∧ (y = -1 ∨ y = 0 ∨ y = 1) ∧ (z = -1 ∨ z = 0 ∨ z = 1) := by
    intro x y z t ht hle
    have := sq_nonneg x
    have := sq_nonneg y
    have := sq_nonneg z
    exact ⟨small_int (c := 176400) (by nlinarith) (by norm_num), small_int (c := 194481) (by nlinarith) (by norm_num),
      small_int (c := 160000) (by nlinarith) (by norm_num)⟩
  have c0 := ortho_col h 0
  have c1 := ortho_col h 1
  have c2 := ortho_col h 2
  simp only [Matrix.cons_val] at c0 c1 c2
  obtain ⟨x0, y0, z0⟩ := key _ _ _ _ c0 (by norm_num)
  obtain ⟨x1, y1, z1⟩ := key _ _ _ _ c1 (by norm_num)
  obtain ⟨x2, y2, z2⟩ := key _ _ _ _ c2 (by norm_num)
  have r0 : (M 0 0 = 1 ∨ M 0 0 = -1) ∧ M 1 0 = 0 ∧ M 2 0 = 0 := by
    rcases x0 with x0 | x0 | x0 <;> rcases y0 with y0 | y0 | y0 <;> rcases z0 with z0 | z0 | z0 <;>
      rw [x0, y0, z0] at c0 <;> norm_num at c0 <;> simp [x0, y0, z0]
  have r1 : (M 1 1 = 1 ∨ M 1 1 = -1) ∧ M 0 1 = 0 ∧ M 2 1 = 0 := by
    rcases x1 with x1 | x1 | x1 <;> rcases y1 with y1 | y1 | y1 <;> rcases z1 with z1 | z1 | z1 <;>
      rw [x1, y1, z1] at c1 <;> norm_num at c1 <;> simp [x1, y1, z1]
  have r2 : (M 2 2 = 1 ∨ M 2 2 = -1) ∧ M 0 2 = 0 ∧ M 1 2 = 0 := by
    rcases x2 with x2 | x2 | x2 <;> rcases y2 with y2 | y2 | y2 <;> rcases z2 with z2 | z2 | z2 <;>
      rw [x2, y2, z2] at c2 <;> norm_num at c2 <;> simp [x2, y2, z2]
  refine ⟨M 0 0, M 1 1, M 2 2, r0.1, r1.1, r2.1, ?_⟩
  ext i j
  fin_cases i <;> fin_cases j <;> simp [r0, r1, r2]

/-- the two bases of the cubic sublattice are not equivalent, whatever the symmetries of the other lattice -/
theorem cubicSub_inequivalent {GA GM : List Z3} (hM : ∀ M ∈ GM, IsLatticeSym orthoCell M) :
    ¬ Equivalent GA GM cubicSub cubicSub' := by
  rintro ⟨M1, -, M2, h2, e⟩
  obtain ⟨a, b, c, -, -, -, rfl⟩ := ortho_sym (hM M2 h2)
  have := congrFun (congrFun e 0) 2
  simp [cubicSub, cubicSub', Matrix.mul_apply, Fin.sum_univ_three] at this
  rw [show M1 0 2 * 2 * c = 2 * (M1 0 2 * c) by ring] at this
  omega

/-- a sublattice related to the cubic one has an integral unimodular base -/
theorem cubicSub_integral {GA : List Z3} (hA : ∀ M ∈ GA, IsLatticeSym tetraCell M) {h : Z3}
    (hr : SymRelated GA cubicSub h) : ∃ Z : Z3, Unimodular Z ∧ tetraCell * toR h = toR Z := by
  obtain ⟨M1, m1, U, hU, rfl⟩ := hr
  obtain ⟨Q, hQ, e⟩ := hA M1 m1
  have e : Q * tetraCell = tetraCell * toR M1 := e
  have ht : tetraCell.det ≠ 0 := by rw [tetraCell_det]; norm_num
  have hin : InPointGroup tetraCell Q := by
    refine (inPointGroup_iff ht).mpr ⟨mul_eq_one_comm.mp hQ, ?_⟩
    rw [e, ← Matrix.mul_assoc, Matrix.nonsing_inv_mul _ (isUnit_iff_ne_zero.mpr ht), Matrix.one_mul]
    exact isIntegral_toR M1
  have hint : IsIntegral Q := by
    refine orthogonal_integral (s := ![1, 1, 1 / 2]) ?_ hin
    intro i; fin_cases i <;> norm_num
  obtain ⟨R, rfl⟩ := (isIntegral_iff _).mp hint
  refine ⟨R * U, ?_, ?_⟩
  · have hR : Rᵀ * R = 1 := by
      apply toR_injective
      rw [toR_mul, toR_transpose, toR_one]
      exact hQ
    have hd := congrArg Matrix.det hR
    rw [Matrix.det_mul, Matrix.det_transpose, Matrix.det_one] at hd
    unfold Unimodular at *
    rw [Matrix.det_mul]
    rcases Int.eq_one_or_neg_one_of_mul_eq_one hd with h | h <;> rcases hU with h' | h' <;> simp [h, h']
  · have h1 : tetraCell * toR cubicSub = 1 := by
      ext i j
      rw [tetraCell, Matrix.diagonal_mul]
      fin_cases i <;> fin_cases j <;> simp [cubicSub, toR]
    calc tetraCell * toR (M1 * cubicSub * U) = (tetraCell * toR M1) * toR cubicSub * toR U := by
          rw [toR_mul, toR_mul]; simp only [Matrix.mul_assoc]
      _ = toR R * (tetraCell * toR cubicSub) * toR U := by rw [← e]; simp only [Matrix.mul_assoc]
      _ = toR (R * U) := by rw [h1, Matrix.mul_one, toR_mul]

/-- all rotations of a lattice with an integral unimodular base are found -/
theorem integral_base_group {t : Tol} {E : Matrix (Fin 3) (Fin 3) ℝ} {Z : Z3} (hZ : Unimodular Z) (hE : E = toR Z)
    (hr : Reliable t E candidates3) {GS : List Z3} (hg : Lat.specialLatticeGroup t ⟨3, E⟩ = .ok GS) {M : Z3}
    {Q : Matrix (Fin 3) (Fin 3) ℝ} (hQ : Q * Qᵀ = 1) (hd : Q.det = 1) (hM : Q * E = E * toR M) : M ∈ GS := by
  have hE0 : E.det ≠ 0 := by
    rw [hE, toR_det]
    rcases hZ with h | h <;> rw [h] <;> norm_num
  obtain ⟨V, hV, hZV, hVZ⟩ := unimodular_exists_inv hZ
  have hint : ∀ Q, InPointGroup E Q → IsIntegral Q := by
    intro Q hQ
    obtain ⟨M, -, e, -⟩ := sym_coords hE0 hQ
    have : Q = toR (Z * M * V) := by
      calc Q = Q * E * toR V := by
            rw [Matrix.mul_assoc, hE, ← toR_mul, hZV, toR_one, Matrix.mul_one]
        _ = toR (Z * M * V) := by rw [e, hE, toR_mul, toR_mul]
    rw [this]
    exact isIntegral_toR _
  obtain ⟨g, hg', hfull⟩ := full_of_cubic t E hE0 hr fun Q hQ => integral_rotation hQ.1.1 hQ.2 (hint Q hQ.1)
  have hQin : InPointGroup E Q := by
    refine (inPointGroup_iff hE0).mpr ⟨hQ, ?_⟩
    rw [hM, ← Matrix.mul_assoc, Matrix.nonsing_inv_mul _ (isUnit_iff_ne_zero.mpr hE0), Matrix.one_mul]
    exact isIntegral_toR M
  obtain ⟨-, hmem⟩ := hfull
  have hQg := (hmem Q).mpr ⟨hQin, hd⟩
  simp only [Lat.specialLatticeGroup, hg', Except.ok.injEq] at hg
  rw [← hg]
  refine List.mem_map.mpr ⟨Q, hQg, ?_⟩
  exact conj_unique hE0 ((conj_spec hE0 hQin).trans hM)

/-! ### The hypotheses of `C85_lat_cor_hnf_partial` -/

theorem window_two {k : ℤ} (h : InWindow 0.1 (orthoCell.det / tetraCell.det) k) : k = 2 := by
  rw [orthoCell_det, tetraCell_det] at h
  have h1 : (1 : ℝ) < k := by have := h.1; norm_num at this; linarith
  have h2 : (k : ℝ) < 3 := by have := h.2; norm_num at this; linarith
  have h1' : 1 < k := by exact_mod_cast h1
  have h2' : k < 3 := by exact_mod_cast h2
  omega

theorem two_window : InWindow 0.1 (orthoCell.det / tetraCell.det) 2 := by
  rw [orthoCell_det, tetraCell_det]
  constructor <;> norm_num

theorem tetra_lll {h : Z3} (hh : IsHNF h) (hd : h.det = 2) : ∃ B, lll (tetraCell * intMat ℝ h) = .base B := by
  have hdet : (tetraCell * intMat ℝ h).det = 1 := by
    rw [Matrix.det_mul, tetraCell_det]
    have : (intMat ℝ h).det = (h.det : ℝ) := (Int.cast_det h).symm
    rw [this, hd]; norm_num
  have hprod : h 0 0 * h 1 1 * h 2 2 = 2 := by
    rw [← hd, det_isHNF hh, Fin.prod_univ_three]
  have d0 := hh.diag 0
  have d1 := hh.diag 1
  have d2 := hh.diag 2
  have b0 : h 0 0 ≤ 2 := by nlinarith [mul_pos d1 d2, mul_pos d0 d1]
  have b1 : h 1 1 ≤ 2 := by nlinarith [mul_pos d0 d2, mul_pos d0 d1]
  have b2 : h 2 2 ≤ 2 := by nlinarith [mul_pos d0 d1]
  have bound : ∀ i j, (h i j : ℝ) ^ 2 ≤ 4 := by
    have key : ∀ i j, -2 ≤ h i j ∧ h i j ≤ 2 := by
      intro i j
      have dd : h i i ≤ 2 := by fin_cases i <;> assumption
      have dp := hh.diag i
      rcases lt_trichotomy i j with hij | rfl | hij
      · rw [hh.upper i j hij]; norm_num
      · omega
      · have := hh.lower i j hij; omega
    intro i j
    obtain ⟨l, u⟩ := key i j
    have l' : (-2 : ℝ) ≤ h i j := by exact_mod_cast l
    have u' : (h i j : ℝ) ≤ 2 := by exact_mod_cast u
    nlinarith
  obtain ⟨B, hB, -⟩ := C84_cell_partial (E := tetraCell * intMat ℝ h) (by rw [hdet]; norm_num) (A := 9) (by norm_num)
    (by
      intro j
      have e : ∀ i, (tetraCell * intMat ℝ h) i j = ![1, 1, 1 / 2] i * (h i j : ℝ) := by
        intro i; rw [tetraCell, Matrix.diagonal_mul]; rfl
      simp only [Fin.sum_univ_three, e]
      have := bound 0 j
      have := bound 1 j
      have := bound 2 j
      simp
      nlinarith)
    (by rw [hdet]; norm_num)
  exact ⟨B, hB⟩

/-- **C85**: solutions are left out.  For a tetragonal and an orthorhombic lattice, any number of solutions asked
for, any iteration bounds and any pool, there is a correspondence within the volume threshold that is at least
as close as every solution returned, and is equivalent to none of them. -/
theorem C85_missed_fails (o : HnfOutside)
    (heig : ∀ A : Matrix (Fin 3) (Fin 3) ℝ, Aᵀ = A → IsEigenvalues A (o.eig A))
    (hsys : ∀ A, Aᵀ = A → IsEigenSystem A (o.eigsys A).1 (o.eigsys A).2) (kw : HnfKw) (pool : HnfPool)
    (hpool : Fair pool) (hvol : readkw kw.volTh 0.1 = 0.1) (hn : 1 ≤ readkw kw.nsol 1)
    (hk : readkw kw.dist "Cauchy" = "Cauchy") :
    ∃ CA CM, Constructs .py3 6 (.list (.float [1, 1 / 2])) 3 tetraCell CA ∧
      Constructs .py3 8 (.list (.float [1, 21 / 20, 20 / 21])) 3 orthoCell CM ∧
      ∃ GA GM, Lat.specialLatticeGroup .exact ⟨3, tetraCell⟩ = .ok GA ∧
        Lat.specialLatticeGroup .exact ⟨3, orthoCell⟩ = .ok GM ∧
        ∃ (rs : List (Report 3)) (N : ℕ), (∀ F, N ≤ F → latCorHnf .exact .py3 o kw pool F 6
            (.list (.float [1, 1 / 2])) 8 (.list (.float [1, 21 / 20, 20 / 21])) = .ok rs) ∧
          ∃ L : Z3, InWindow 0.1 (orthoCell.det / tetraCell.det) L.det ∧
            (∀ r ∈ rs, r.d = mismatch tetraCell orthoCell r.l ∧ mismatch tetraCell orthoCell L ≤ r.d) ∧
            ∀ r ∈ rs, ¬ Equivalent GA GM r.l L := by
  obtain ⟨CA, hA⟩ := tetra_constructs
  obtain ⟨CM, hM⟩ := ortho_constructs
  refine ⟨CA, CM, hA, hM, ?_⟩
  obtain ⟨-, dA, cA⟩ := constructs_det hA
  obtain ⟨-, dM, -⟩ := constructs_det hM
  obtain ⟨GA, GM, hGA, hGM, gA, gM, sA, sM, rs, N, news, red, h1, h2, h3, sols, ext, h4, h5⟩ :=
    hnf_outcome .exact .py3 heig hsys dA dM cA (CM := CM) (.inl rfl) (.inl rfl) kw pool hpool hn (.inl hk)
      (by rw [orthoCell_det, tetraCell_det]; norm_num) (by rw [hvol]; norm_num) ⟨2, by rw [hvol]; exact two_window⟩
      (fun h hh hw => ⟨.inl rfl, tetra_lll hh (window_two (by rw [← hvol]; exact hw))⟩)
  refine ⟨GA, GM, hGA, hGM, rs, N, fun F hF => by rw [latCorHnf_eq hA hM]; exact h1 F hF, ?_⟩
  have hdist : ∀ L, namedDist o.eig tetraCell orthoCell (readkw kw.dist "Cauchy") L = mismatch tetraCell orthoCell L := by
    intro L
    rw [hk, ← mismatch_eq]
    simp [namedDist]
  have hd : ∀ r ∈ rs, r.d = mismatch tetraCell orthoCell r.l := by
    intro r hr
    obtain ⟨s, hs, e1, e2, -⟩ := forall₂_right h5 r hr
    rw [e1, e2, h4.distances s hs, hdist]
  have hwin : ∀ L : Z3, L.det = 2 → InWindow 0.1 (orthoCell.det / tetraCell.det) L.det := fun L hL => by
    rw [hL]; exact two_window
  have det1 : cubicSub.det = 2 := by decide +kernel
  have det2 : cubicSub'.det = 2 := by decide +kernel
  have hle : ∀ L : Z3, mismatch tetraCell orthoCell L = bestMissed →
      ∀ r ∈ rs, r.d = mismatch tetraCell orthoCell r.l ∧ mismatch tetraCell orthoCell L ≤ r.d := by
    intro L hL r hr
    refine ⟨hd r hr, ?_⟩
    rw [hL, hd r hr]
    exact bestMissed_le r.l
  by_contra hcon
  push Not at hcon
  obtain ⟨r1, hr1, q1⟩ := hcon cubicSub (hwin _ det1) (hle _ cubicSub_dist.1)
  obtain ⟨r2, hr2, q2⟩ := hcon cubicSub' (hwin _ det2) (hle _ cubicSub_dist.2)
  -- where the two solutions come from
  have origin : ∀ r ∈ rs, ∃ h ∈ red, ∃ new, SubResult .exact o tetraCell orthoCell kw GM h new ∧
      ∃ s ∈ new, s.l = r.l ∧ ∃ l : Z3, l.det = 1 ∧ s.l = h * l := by
    intro r hr
    obtain ⟨s, hs, e1, -⟩ := forall₂_right h5 r hr
    obtain ⟨u, hu, he⟩ := List.mem_map.mp (h4.origin s hs)
    obtain ⟨new, hnew, hu⟩ := List.mem_flatten.mp hu
    obtain ⟨h, hh, hR⟩ := forall₂_right h2 new hnew
    exact ⟨h, hh, new, hR.2, u, hu, by rw [he, e1], hR.2.form u hu⟩
  obtain ⟨ha, ia, newa, Ra, sa, ma, ea, la, deta, fa⟩ := origin r1 hr1
  obtain ⟨hb, ib, newb, Rb, sb, mb, eb, lb, detb, fb⟩ := origin r2 hr2
  -- both are bases of sublattices related to the cubic one
  have rel : ∀ (r h l X : Z3) (U : Z3), r = h * l → l.det = 1 → Equivalent GA GM r X → X = cubicSub * U →
      Unimodular U → SymRelated GA cubicSub h := by
    rintro r h l X U rfl hl he rfl hU
    obtain ⟨M1, m1, M2, m2, e⟩ := equivalent_symm gA gM he
    obtain ⟨V, hV, hlV, -⟩ := unimodular_exists_inv (Or.inl hl : Unimodular l)
    refine ⟨M1, m1, U * M2 * V, ?_, ?_⟩
    · unfold Unimodular at *
      have hm2 : M2.det = 1 ∨ M2.det = -1 := by
        obtain ⟨a, b, c, h1, h2, h3, rfl⟩ := ortho_sym (sM M2 m2)
        rcases h1 with rfl | rfl <;> rcases h2 with rfl | rfl <;> rcases h3 with rfl | rfl <;> decide +kernel
      rw [Matrix.det_mul, Matrix.det_mul]
      rcases hU with h | h <;> rcases hm2 with h' | h' <;> rcases hV with h'' | h'' <;> simp [h, h', h'']
    · calc M1 * cubicSub * (U * M2 * V) = M1 * (cubicSub * U) * M2 * V := by simp only [Matrix.mul_assoc]
        _ = h * l * V := by rw [← e]
        _ = h := by rw [Matrix.mul_assoc, hlV, Matrix.mul_one]
  have rela := rel r1.l ha la cubicSub 1 (by rw [← ea, fa]) deta q1 (by rw [Matrix.mul_one]) (Or.inl Matrix.det_one)
  have relb := rel r2.l hb lb cubicSub' !![0, 0, 1; 1, 0, 0; 0, 1, 0] (by rw [← eb, fb]) detb q2
    (by decide +kernel) (Or.inl (by decide +kernel))
  have hab : ha = hb := ((h3 cubicSub (by rw [det1, hvol]; exact two_window)).2 rfl).unique ⟨ia, rela⟩ ⟨ib, relb⟩
  subst hab
  have hnew : newa = newb := by
    obtain ⟨N1, k1⟩ := Ra.runs
    obtain ⟨N2, k2⟩ := Rb.runs
    have := (k1 (max N1 N2) (by omega)).symm.trans (k2 (max N1 N2) (by omega))
    injection this
  subst hnew
  -- the two are related by a symmetry of the sublattice
  obtain ⟨Z, hZ, hEZ⟩ := cubicSub_integral sA rela
  set E := tetraCell * intMat ℝ ha with hE
  have hEZ : E = toR Z := hEZ
  obtain ⟨GS, hGS, hineq⟩ : ∃ GS, Lat.specialLatticeGroup .exact ⟨3, E⟩ = .ok GS ∧
      ∀ l l' : Z3, newa.Pairwise fun a b => a.l = ha * l → b.l = ha * l' → ¬ Equivalent GS GM l l' :=
    Ra.inequivalent
  have orth : ∀ (r X : Z3), Equivalent GA GM r X → (tetraCell * toR X)ᵀ * (tetraCell * toR X) = 1 →
      (tetraCell * toR r)ᵀ * (tetraCell * toR r) = 1 := by
    intro r X he hX
    obtain ⟨M1, m1, M2, m2, rfl⟩ := equivalent_symm gA gM he
    obtain ⟨Q, hQ, e⟩ := sA M1 m1
    have e : Q * tetraCell = tetraCell * toR M1 := e
    have hm2 : (toR M2)ᵀ * toR M2 = 1 := by
      obtain ⟨a, b, c, h1, h2, h3, rfl⟩ := ortho_sym (sM M2 m2)
      rw [← toR_transpose, ← toR_mul, ← toR_one]
      congr 1
      rcases h1 with rfl | rfl <;> rcases h2 with rfl | rfl <;> rcases h3 with rfl | rfl <;> decide +kernel
    have e2 : tetraCell * toR (M1 * X * M2) = Q * (tetraCell * toR X) * toR M2 := by
      rw [toR_mul, toR_mul, ← Matrix.mul_assoc, ← Matrix.mul_assoc, ← e]
      simp only [Matrix.mul_assoc]
    rw [e2, Matrix.transpose_mul, Matrix.transpose_mul]
    calc (toR M2)ᵀ * ((tetraCell * toR X)ᵀ * Qᵀ) * (Q * (tetraCell * toR X) * toR M2)
        = (toR M2)ᵀ * ((tetraCell * toR X)ᵀ * (Qᵀ * Q) * (tetraCell * toR X)) * toR M2 := by
          simp only [Matrix.mul_assoc]
      _ = 1 := by rw [show Qᵀ * Q = 1 from hQ, Matrix.mul_one, hX, Matrix.mul_one, hm2]
  have oa := orth r1.l cubicSub q1 (by
    have : tetraCell * toR cubicSub = 1 := by
      ext i j
      rw [tetraCell, Matrix.diagonal_mul]
      fin_cases i <;> fin_cases j <;> simp [cubicSub, toR]
    rw [this]; simp)
  have ob := orth r2.l cubicSub' q2 (by
    have : tetraCell * toR cubicSub' = toR !![0, 0, 1; 1, 0, 0; 0, 1, 0] := by
      ext i j
      rw [tetraCell, Matrix.diagonal_mul]
      fin_cases i <;> fin_cases j <;> simp [cubicSub', toR]
    rw [this, ← toR_transpose, ← toR_mul, ← toR_one]
    congr 1
    decide +kernel)
  have split : ∀ l, tetraCell * toR (ha * l) = E * toR l := by
    intro l
    rw [toR_mul, ← Matrix.mul_assoc]
    rfl
  rw [← ea, fa, split] at oa
  rw [← eb, fb, split] at ob
  have sym : ∀ l l' : Z3, l.det = 1 → l'.det = 1 → (E * toR l)ᵀ * (E * toR l) = 1 →
      (E * toR l')ᵀ * (E * toR l') = 1 → Equivalent GS GM l l' := by
    intro l l' d d' p p'
    obtain ⟨V, -, hlV, hVl⟩ := unimodular_exists_inv (Or.inl d : Unimodular l)
    refine ⟨l' * V, ?_, 1, gM.one_mem, by rw [Matrix.mul_one, Matrix.mul_assoc, hVl, Matrix.mul_one]⟩
    refine integral_base_group hZ hEZ (.inl rfl) hGS (Q := E * toR l' * (E * toR l)ᵀ) ?_ ?_ ?_
    · rw [Matrix.transpose_mul (E * toR l'), Matrix.transpose_transpose]
      calc E * toR l' * (E * toR l)ᵀ * (E * toR l * (E * toR l')ᵀ)
          = E * toR l' * ((E * toR l)ᵀ * (E * toR l)) * (E * toR l')ᵀ := by simp only [Matrix.mul_assoc]
        _ = 1 := by rw [p, Matrix.mul_one]; exact mul_eq_one_comm.mp p'
    · have := congrArg Matrix.det p
      rw [Matrix.det_mul, Matrix.det_transpose, Matrix.det_one, Matrix.det_mul E, toR_det, d] at this
      rw [Matrix.det_mul, Matrix.det_transpose, Matrix.det_mul E, Matrix.det_mul E, toR_det, toR_det, d, d']
      exact this
    · have h0 : toR l * toR V = 1 := by rw [← toR_mul, hlV, toR_one]
      calc E * toR l' * (E * toR l)ᵀ * E = E * toR l' * (E * toR l)ᵀ * (E * (toR l * toR V)) := by
            rw [h0, Matrix.mul_one]
        _ = E * toR l' * ((E * toR l)ᵀ * (E * toR l)) * toR V := by simp only [Matrix.mul_assoc]
        _ = E * toR (l' * V) := by rw [p, Matrix.mul_one, toR_mul, Matrix.mul_assoc]
  by_cases hsame : sa = sb
  · have hr : r1.l = r2.l := by rw [← ea, ← eb, hsame]
    rw [hr] at q1
    exact cubicSub_inequivalent sM (equivalent_trans gA gM (equivalent_symm gA gM q1) q2)
  · obtain ⟨i, hi, ei⟩ := List.mem_iff_getElem.mp ma
    obtain ⟨j, hj, ej⟩ := List.mem_iff_getElem.mp mb
    rcases lt_trichotomy i j with hij | rfl | hij
    · have := List.pairwise_iff_getElem.mp (hineq la lb) i j hi hj hij (by rw [ei, fa]) (by rw [ej, fb])
      exact this (sym la lb deta detb oa ob)
    · exact hsame (ei.symm.trans ej)
    · have := List.pairwise_iff_getElem.mp (hineq lb la) j i hj hi hij (by rw [ej, fb]) (by rw [ei, fa])
      exact this (sym lb la detb deta ob oa)

/-! ### Reflected bases -/

theorem sizes_neg {v r : ℝ} (hv : -1 < v) (hr : r < -1 / 2) : ∃ k ks, sizes v r = k :: ks ∧ k < 0 := by
  have hall : ∀ k ∈ sizes v r, k < 0 := by
    intro k hk
    unfold sizes at hk
    simp only at hk
    split_ifs at hk with h0
    · rw [List.mem_singleton] at hk
      subst hk
      unfold roundEven
      have hfl : (⌊r⌋ : ℤ) ≤ -1 := by
        have : (⌊r⌋ : ℝ) ≤ r := Int.floor_le r
        have : (⌊r⌋ : ℝ) < 0 := by linarith
        have : ⌊r⌋ < 0 := by exact_mod_cast this
        omega
      split_ifs with h1 h2
      · omega
      · have h3 : ⌊r⌋ ≠ -1 := by
          intro h
          have := Int.self_sub_floor r
          rw [h1, h] at this
          push_cast at this
          linarith
        omega
      · rw [round_eq]
        have : (⌊r + 1 / 2⌋ : ℝ) ≤ r + 1 / 2 := Int.floor_le _
        have : (⌊r + 1 / 2⌋ : ℝ) < 0 := by linarith
        exact_mod_cast this
    · unfold arange at hk
      obtain ⟨i, hi, rfl⟩ := List.mem_map.mp hk
      rw [List.mem_range] at hi
      have : (⌊(1 + v) * r⌋ : ℝ) ≤ (1 + v) * r := Int.floor_le _
      have : (⌊(1 + v) * r⌋ : ℝ) < 0 := by nlinarith
      have : ⌊(1 + v) * r⌋ < 0 := by exact_mod_cast this
      omega
  cases h : sizes v r with
  | nil =>
    exfalso
    unfold sizes at h
    simp only at h
    split_ifs at h with h0
    rw [h] at h0
    exact h0 rfl
  | cons k ks => exact ⟨k, ks, rfl, hall k (by rw [h]; exact List.mem_cons_self ..)⟩

theorem reflected_err (t : Tol) (py : Py) (o : HnfOutside) (kw : HnfKw) (pool : HnfPool) (F : ℕ)
    {EA EM CA CM : Matrix (Fin 3) (Fin 3) ℝ} (dA : EA.det ≠ 0) (dM : EM.det ≠ 0)
    (hrA : Reliable t EA candidates3) (hrM : Reliable t EM candidates3)
    (hv : -1 < readkw kw.volTh 0.1) (hr : EM.det / EA.det < -1 / 2) :
    latCorHnfCore t py o kw pool F EA EM CA CM = .err .valueError := by
  obtain ⟨GA, hGA, -⟩ := special_group dA hrA
  obtain ⟨GM, hGM, -⟩ := special_group dM hrM
  have hGA : Lat.specialLatticeGroup t ⟨3, EA⟩ = .ok GA := hGA
  have hGM : Lat.specialLatticeGroup t ⟨3, EM⟩ = .ok GM := hGM
  obtain ⟨k, ks, hs, hk⟩ := sizes_neg hv hr
  have h1 : allHnfs 3 (sizes (readkw kw.volTh 0.1) (EM.det / EA.det)) = .error .valueError := by
    rw [hs, allHnfs, mapExcept, hnfFromDet, if_pos hk]
  simp only [latCorHnfCore, hGA, hGM, h1, Run.ofExcept, Run.bind]

/-- A basis with a negative determinant, of the cubic lattice with edge 1. -/
noncomputable def reflected : Matrix (Fin 3) (Fin 3) ℝ := Matrix.diagonal ![1, 1, -1]

theorem reflected_det : reflected.det = -1 := by
  rw [reflected, Matrix.det_diagonal]; simp [Fin.prod_univ_three]

theorem reflected_constructs : ∃ C, Constructs .py3 12 (.list (.float [1, 1, 1, 270])) 3 reflected C := by
  have hr : radians 270 = Real.pi / 2 + Real.pi := by unfold radians; ring
  obtain ⟨C, h⟩ := new_of_prim (py := .py3) (id := 12) (l := [1, 1, 1, 270]) (E := reflected) (by simp) (by norm_num)
    (by norm_num) (by decide) (by
      simp [primBase3, Nums.get, Nums.vals, reflected, hr, Real.sin_add_pi, Real.cos_add_pi]
      ext i j; fin_cases i <;> fin_cases j <;> simp) (by rw [reflected_det]; norm_num)
  exact ⟨_, _, rfl, h, rfl, rfl⟩

/-- **C85**: for a monoclinic lattice with an angle of 270 degrees, which the constructor accepts, and the
orthorhombic one above, the call raises `ValueError`, although the two unit cells have the same volume. -/
theorem C85_reflected_fails (o : HnfOutside) (kw : HnfKw) (pool : HnfPool) (F : ℕ)
    (hv : -1 < readkw kw.volTh 0.1) :
    ∃ CA CM, Constructs .py3 12 (.list (.float [1, 1, 1, 270])) 3 reflected CA ∧
      Constructs .py3 8 (.list (.float [1, 21 / 20, 20 / 21])) 3 orthoCell CM ∧
      |reflected.det| = |orthoCell.det| ∧
      latCorHnf .exact .py3 o kw pool F 12 (.list (.float [1, 1, 1, 270])) 8
        (.list (.float [1, 21 / 20, 20 / 21])) = .err .valueError := by
  obtain ⟨CA, hA⟩ := reflected_constructs
  obtain ⟨CM, hM⟩ := ortho_constructs
  refine ⟨CA, CM, hA, hM, by rw [reflected_det, orthoCell_det]; norm_num, ?_⟩
  rw [latCorHnf_eq hA hM]
  obtain ⟨-, dA, -⟩ := constructs_det hA
  obtain ⟨-, dM, -⟩ := constructs_det hM
  exact reflected_err .exact .py3 o kw pool F dA dM (.inl rfl) (.inl rfl) hv
    (by rw [orthoCell_det, reflected_det]; norm_num)

/-! ### The hypotheses of `C85_lat_cor_hnf_partial` are met -/

example : ∃ (o : HnfOutside) (CA CM : Matrix (Fin 3) (Fin 3) ℝ),
    (∀ A : Matrix (Fin 3) (Fin 3) ℝ, Aᵀ = A → IsEigenvalues A (o.eig A)) ∧
    (∀ A, Aᵀ = A → IsEigenSystem A (o.eigsys A).1 (o.eigsys A).2) ∧
    Constructs .py3 6 (.list (.float [1, 1 / 2])) 3 tetraCell CA ∧
    Constructs .py3 8 (.list (.float [1, 21 / 20, 20 / 21])) 3 orthoCell CM ∧
    Reliable .exact tetraCell candidates3 ∧ Reliable .exact orthoCell candidates3 ∧ Fair (.pool 2 fun _ _ => true) ∧
    0 < orthoCell.det / tetraCell.det ∧ (∃ k, InWindow 0.1 (orthoCell.det / tetraCell.det) k) ∧
    ∀ h : Z3, IsHNF h → InWindow 0.1 (orthoCell.det / tetraCell.det) h.det →
      Reliable .exact (tetraCell * intMat ℝ h) candidates3 ∧ ∃ B, lll (tetraCell * intMat ℝ h) = .base B := by
  obtain ⟨CA, hA⟩ := tetra_constructs
  obtain ⟨CM, hM⟩ := ortho_constructs
  obtain ⟨eigsys, he⟩ := eigsys_exists 3
  have hv : ∀ A : Matrix (Fin 3) (Fin 3) ℝ, ∃ l, Aᵀ = A → IsEigenvalues A l := by
    intro A
    by_cases hA : Aᵀ = A
    · have hA' : A.IsHermitian := by rw [Matrix.IsHermitian, Matrix.conjTranspose_eq_transpose_of_trivial, hA]
      exact ⟨hA'.eigenvalues, fun _ => by
        have := hA'.charpoly_eq
        simpa [IsEigenvalues] using this⟩
    · exact ⟨0, fun h => absurd h hA⟩
  choose eig heig using hv
  exact ⟨⟨eig, eigsys⟩, CA, CM, heig, he, hA, hM, .inl rfl, .inl rfl, ⟨by norm_num, fun _ => ⟨0, fun _ _ => rfl⟩⟩,
    by rw [orthoCell_det, tetraCell_det]; norm_num, ⟨2, two_window⟩,
    fun h hh hw => ⟨.inl rfl, tetra_lll hh (window_two hw)⟩⟩

end Verif.Props
