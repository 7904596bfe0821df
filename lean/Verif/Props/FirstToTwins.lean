import Verif.Spec.SlightEdges
import Verif.Props.ThreeEdges
import Verif.Props.CubeOnCube

/-!
# From lattice parameters to twins

C111: the first solution of `lat_cor`, given to `Martensite` and `TwinSystem`, has the twins of the transformation.
-/

namespace Verif.Props

open Matrix Verif.Model Verif.Spec Verif.Lemmas

local notation "Mat3" => Matrix (Fin 3) (Fin 3) ℝ

variable {t : Tol}

/-! ### the symmetry tests are reliable for slightly distorted cubes -/

theorem slight_small {a : ℝ} {e : Fin 3 → ℝ} (h : SlightEdges a e) : SmallStretch (diagonal fun i => e i / a) := by
  refine ⟨diagonal_transpose _, fun l => ?_⟩
  obtain ⟨j, k, ha⟩ := other_axes l
  rw [ha.sum]
  simp only [diagonal_apply_eq, diagonal_apply_ne _ ha.ij, diagonal_apply_ne _ ha.ik, Matrix.one_apply_eq,
    Matrix.one_apply_ne ha.ij, Matrix.one_apply_ne ha.ik, sub_zero, abs_zero, add_zero]
  exact (h.near l).trans (by norm_num)

theorem slight_clear {a : ℝ} {e : Fin 3 → ℝ} (h : SlightEdges a e) : ClearSymmetry (diagonal fun i => e i / a) := by
  intro R hR
  rw [realOf_eq]
  obtain ⟨σ, hσ⟩ := diagonal_orbit (cube_iff.1 hR) fun i => e i / a
  rw [hσ]
  by_cases h1 : ∀ l, e (σ l) = e l
  · left
    congr 1
    funext l
    rw [Function.comp_apply, h1]
  · push Not at h1
    obtain ⟨l, hl⟩ := h1
    refine .inr ⟨l, l, ?_⟩
    rw [diagonal_apply_eq, diagonal_apply_eq]
    exact le_trans (by norm_num) ((h.clear (σ l) l).resolve_left hl)

theorem code_not_exact : Tol.code ≠ Tol.exact := fun h => by
  have := congrArg Tol.atol h
  norm_num [Tol.code, Tol.exact] at this

theorem scaled_reliable {U : Mat3} {a : ℝ} (ha : 0 < a) (h : SmallStretch U) (hc : ClearFor t U) :
    Reliable t (a • U) candidates3 := by
  rcases hc.tol with rfl | rfl
  swap
  · exact .inl rfl
  obtain ⟨h1, h2⟩ := small_reliable h hc
  have hE : U.det ≠ 0 := (spd_det_pos (small_spd h)).ne'
  have hE' : (a • U).det ≠ 0 := by
    rw [det_smul]
    exact mul_ne_zero (pow_ne_zero _ ha.ne') hE
  have hconj : ∀ Q : Mat3, (a • U)⁻¹ * (Q * (a • U)) = U⁻¹ * (Q * U) := fun Q => by
    have hinv : (a • U)⁻¹ = a⁻¹ • U⁻¹ := by
      refine inv_eq_right_inv ?_
      rw [smul_mul_smul_comm, mul_nonsing_inv _ hE.isUnit, mul_inv_cancel₀ ha.ne', one_smul]
    rw [hinv, Matrix.mul_smul, smul_mul_smul_comm, inv_mul_cancel₀ ha.ne', one_smul]
  refine .inr ⟨rfl, fun Q hQ => ?_⟩
  rw [inPointGroup_iff hE', hconj, ← inPointGroup_iff hE]
  rcases List.mem_append.1 hQ with hQ | hQ
  · rcases h1 with h1 | ⟨-, h1⟩
    · exact absurd h1 code_not_exact
    · exact h1 Q (by rw [map_int_val]; exact hQ)
  · rcases h2 with h2 | ⟨-, h2⟩
    · exact absurd h2 code_not_exact
    · exact h2 Q hQ

theorem slight_reliable {a : ℝ} {e : Fin 3 → ℝ} (ha : 0 < a) (ht : t = .code ∨ t = .exact) (h : SlightEdges a e) :
    Reliable t (diagonal e) candidates3 := by
  have := scaled_reliable ha (slight_small h) (clear_for ht (slight_clear h))
  rwa [← diagonal_smul, show (a • fun i => e i / a) = e from funext fun i => by
    rw [Pi.smul_apply, smul_eq_mul, mul_div_cancel₀ _ ha.ne']] at this

theorem slight_const {a : ℝ} (ha : 0 < a) : SlightEdges a fun _ => a :=
  ⟨fun _ => by rw [div_self ha.ne']; norm_num, fun _ _ => .inl rfl⟩

theorem cube_reliable {a : ℝ} (ha : 0 < a) (ht : t = .code ∨ t = .exact) : Reliable t (a • (1 : Mat3)) candidates3 := by
  have := slight_reliable ha ht (slight_const ha)
  rwa [← smul_one_eq_diagonal] at this

theorem slight_close {a : ℝ} {e : Fin 3 → ℝ} (ha : 0 < a) (h : SlightEdges a e) : CloseEdges a e := by
  intro j
  obtain ⟨h1, h2⟩ := abs_le.1 (h.near j)
  have hx : 9 / 10 ≤ e j / a := by linarith
  have hx' : e j / a ≤ 11 / 10 := by linarith
  have he : 0 < e j := by
    rw [le_div_iff₀ ha] at hx
    linarith [mul_pos (show (0 : ℝ) < 9 / 10 by norm_num) ha]
  refine ⟨he, ?_⟩
  have e1 : a / e j = (e j / a)⁻¹ := (inv_div _ _).symm
  rw [e1]
  set x := e j / a
  have hx0 : 0 < x := by linarith
  have e2 : x⁻¹ ^ 2 = 1 / x ^ 2 := by rw [inv_pow, one_div]
  rw [e2, abs_le]
  have hp : 0 < x ^ 2 := by positivity
  constructor
  · have : 3 / 4 ≤ 1 / x ^ 2 := by rw [le_div_iff₀ hp]; nlinarith
    linarith
  · have : 1 / x ^ 2 ≤ 5 / 4 := by rw [div_le_iff₀ hp]; nlinarith
    linarith

/-! ### the twins of the first solution -/

/-- `Martensite().setU(U)` accepts the array `U`, and the twin system of the object has `nt` twin pairs, `nc` of them compound
and `ni` of type I and II. -/
def MakesSystem (eig : Mat3 → EigRes) (t : Tol) (U : Mat3) (nv nt nc ni : ℕ) : Prop :=
  ∃ m vs, Mart.setU ⟨none, cubicR⟩ [.arr (.mat 3 3 false U)] = .ok m ∧ m.getU = .ok U ∧ m.getVariants t = .ok vs ∧
    vs.length = nv ∧ vs.head? = some U ∧ SystemOf eig t m nt nc ni

theorem makes_system {eig : Mat3 → EigRes} {U : Mat3} {nv nt nc ni : ℕ} (hU : IsSPD U)
    (hv : ∃ vs, Mart.getVariants t ⟨some U, cubicR⟩ = .ok vs ∧ vs.length = nv ∧ vs.head? = some U)
    (h : SystemOf eig t ⟨some U, cubicR⟩ nt nc ni) : MakesSystem eig t U nv nt nc ni := by
  obtain ⟨vs, h1, h2, h3⟩ := hv
  refine ⟨⟨some U, cubicR⟩, vs, ?_, rfl, h1, h2, h3, h⟩
  have hc : U.submatrix (Fin.cast (rfl : 3 = 3)) (Fin.cast (rfl : 3 = 3)) = U := by ext i j; rfl
  simp only [Mart.setU, uOf, and_self, dite_true, hc]
  rw [if_neg (not_not.2 hU.1.symm), if_neg (not_not.2 (spd_det_pos hU))]

theorem slight_three {a : ℝ} {e : Fin 3 → ℝ} (h : SlightEdges a e) (hne : ∀ i j, i ≠ j → e i ≠ e j) :
    ThreeEdges fun i => e i / a :=
  ⟨fun i => (h.near i).trans (by norm_num), fun i j hij => (h.clear i j).resolve_left (hne i j hij)⟩

/-- **C111**, orthorhombic product: if the edges of a primitive orthorhombic cell differ slightly from that of the primitive
cubic parent and from each other, the stretch of the first solution of `lat_cor` is accepted by `Martensite`, has six
variants and nine twin pairs, all of them compound. -/
theorem C111_orthorhombic (eig : Mat3 → EigRes) (heig : ∀ A, Aᵀ = A → EigOK (eig A).vals (eig A).vecs A)
    (ht : t = .code ∨ t = .exact) (py : Py) {a p q r : ℝ} (ha : 0 < a) (he : SlightEdges a ![p, q, r]) (hpq : p ≠ q)
    (hpr : p ≠ r) (hqr : q ≠ r)
    (nsol : Option ℕ) (volTh : Option ℝ) (sliceSz : Option ℕ) (dist : Option String) (o : Outside 3) (ho : Sound o)
    (hn : 1 ≤ readkw nsol 1) (hsz : 1 ≤ readkw sliceSz 100) (hv : 0 < readkw volTh 0.1) (hv1 : readkw volTh 0.1 ≤ 1)
    (rs : List (Report 3)) (trace : List (List ℤ))
    (h : latCor t py ⟨nsol, volTh, none, sliceSz, dist⟩ o 1 (.list (.float [a])) 8 (.list (.float [p, q, r]))
      = .ok (some rs, trace)) (hc : ∀ c ∈ trace, PositiveThenZero c.tail) :
    ∃ s, rs.head? = some s ∧ MakesSystem eig t s.u 6 9 9 0 := by
  obtain ⟨s, h1, ⟨σ, h2⟩, -⟩ := C100_lat_cor py ha (slight_close ha he) (cube_reliable ha ht) (slight_reliable ha ht he)
    nsol volTh sliceSz dist o ho hn hsz hv hv1 rs trace h hc
  have h3 : ThreeEdges fun i => (![p, q, r] : Fin 3 → ℝ) i / a := slight_three he fun i j hij => by
    fin_cases i <;> fin_cases j <;> first | exact absurd rfl hij | assumption | exact Ne.symm ‹_›
  have h4 := edges_perm h3 σ
  refine ⟨s, h1, ?_⟩
  rw [h2]
  obtain ⟨vs, g1, g2, -, g4, -⟩ := C110_variants ht h4
  exact makes_system (small_spd (edges_small h4)) ⟨vs, g1, g2, g4⟩ (C110_system eig heig ht h4)

/-- the base of a primitive tetragonal cell (type 6) -/
theorem constructs_tetra (py : Py) {p r : ℝ} (hp : 0 < p) (hr : 0 < r) :
    ∃ C, Constructs py 6 (.list (.float [p, r])) 3 (Matrix.diagonal ![p, p, r]) C := by
  have hbase : primBase3 py false 6 (Nums.get (.float [p, r])) = some (Matrix.diagonal ![p, p, r]) := by
    simp only [primBase3, Nums.get, Nums.vals]
    norm_num
    ext i j
    fin_cases i <;> fin_cases j <;> simp
  have hdet : (Matrix.diagonal ![p, p, r]).det ≠ 0 := by
    simp [Matrix.det_diagonal, Fin.prod_univ_three, hp.ne', hr.ne']
  refine ⟨(centring3 6)⁻¹, ⟨3, some (Matrix.diagonal ![p, p, r]), 6, .float [p, r], (centring3 6)⁻¹⟩, rfl, ?_, rfl, rfl⟩
  have hch : checkParam (.list (.float [p, r])) = .ok (.float [p, r]) := by
    simp only [checkParam]
    rw [if_neg]
    simp only [Nums.vals, List.mem_cons, List.not_mem_nil, or_false, not_exists, not_and, not_le]
    rintro v (rfl | rfl) <;> assumption
  have hi : initBase (some (Matrix.diagonal ![p, p, r])) = .ok () := by
    simp only [initBase]
    rw [lat_new_sq false hdet]
  simp only [BLat.new, hch]
  norm_num [Nums.vals, paramLen3, Nums.isInt, hbase, hi]
  try exact fun h => absurd rfl h

theorem slight_tetra {x y : ℝ} (hx : |x - 1| ≤ 1 / 10) (hy : |y - 1| ≤ 1 / 10) (hd : 1 / 100 ≤ |x - y|) :
    ClearlyTetragonal x y := by
  obtain ⟨x1, x2⟩ := abs_le.1 hx
  obtain ⟨y1, y2⟩ := abs_le.1 hy
  refine ⟨by norm_num; linarith, by norm_num; linarith, ?_⟩
  rcases le_abs.1 hd with h | h
  · left; constructor <;> norm_num <;> linarith
  · right; constructor <;> norm_num <;> linarith

/-- **C111**, tetragonal product: the same with the parameters `p`, `r` of a primitive tetragonal cell: three variants and
three twin pairs, all of them compound. -/
theorem C111_tetragonal (eig : Mat3 → EigRes) (heig : ∀ A, Aᵀ = A → EigOK (eig A).vals (eig A).vecs A)
    (ht : t = .code ∨ t = .exact) (py : Py) {a p r : ℝ} (ha : 0 < a) (he : SlightEdges a ![p, p, r]) (hpr : p ≠ r)
    (nsol : Option ℕ) (volTh : Option ℝ) (sliceSz : Option ℕ) (dist : Option String) (o : Outside 3) (ho : Sound o)
    (hn : 1 ≤ readkw nsol 1) (hsz : 1 ≤ readkw sliceSz 100) (hv : 0 < readkw volTh 0.1) (hv1 : readkw volTh 0.1 ≤ 1)
    (rs : List (Report 3)) (trace : List (List ℤ))
    (h : latCor t py ⟨nsol, volTh, none, sliceSz, dist⟩ o 1 (.list (.float [a])) 6 (.list (.float [p, r]))
      = .ok (some rs, trace)) (hc : ∀ c ∈ trace, PositiveThenZero c.tail) :
    ∃ s, rs.head? = some s ∧ MakesSystem eig t s.u 3 3 3 0 := by
  have hcl := slight_close ha he
  obtain ⟨CA, cA⟩ := constructs_cubic py ha
  obtain ⟨CM, cM⟩ := constructs_tetra py (hcl 0).1 (hcl 2).1
  have hfin : Finished t none (a • 1) (Matrix.diagonal ![p, p, r]) (readkw nsol 1) rs :=
    ⟨py, nsol, volTh, sliceSz, dist, o, 1, 6, _, _, CA, CM, trace, ho, cA, cM, cube_reliable ha ht, slight_reliable ha ht he,
      rfl, hn, hsz, hv, hv1, h, hc⟩
  obtain ⟨s, h1, ⟨σ, h2⟩⟩ : ∃ s, rs.head? = some s ∧
      ∃ σ : Equiv.Perm (Fin 3), s.u = Matrix.diagonal fun i => (![p, p, r] : Fin 3 → ℝ) (σ i) / a := by
    obtain ⟨s, h1, h2, -⟩ := C100_cube_on_cube (dim := none) ha hcl hfin
    exact ⟨s, h1, h2⟩
  refine ⟨s, h1, ?_⟩
  have h3 : ClearlyTetragonal (p / a) (r / a) :=
    slight_tetra (he.near 0) (he.near 2) ((he.clear 0 2).resolve_left hpr)
  have h4 : s.u = tetraStretch (p / a) (r / a) (σ.symm 2) := by
    rw [h2, tetraStretch]
    congr 1
    funext l
    have key : ∀ m : Fin 3, (![p, p, r] : Fin 3 → ℝ) m / a = if m = 2 then r / a else p / a := fun m => by
      fin_cases m <;> simp
    show (![p, p, r] : Fin 3 → ℝ) (σ l) / a = _
    rw [key]
    simp only [Equiv.eq_symm_apply]
  rw [h4]
  obtain ⟨hα, hγ⟩ := clearly_pos h3
  obtain ⟨vs, g1, g2, -, g4, -⟩ := C101_variants ht h3 (σ.symm 2)
  exact makes_system (tetraStretch_spd hα hγ _) ⟨vs, g1, g2, g4⟩ (C106_tetragonal eig heig ht h3 _)

/-- **C111**, Bain's transformation: from a face-centred to a body-centred cubic lattice the stretch of the first solution has
three variants and three twin pairs, all of them compound. -/
theorem C111_bain (eig : Mat3 → EigRes) (heig : ∀ A, Aᵀ = A → EigOK (eig A).vals (eig A).vecs A)
    (ht : t = .code ∨ t = .exact) (py : Py) {a b : ℝ} (ha : 0 < a) (hb : 1 / 1000 * a ≤ b) (hab : b < Real.sqrt 3 / 2 * a)
    (nsol : Option ℕ) (volTh : Option ℝ) (sliceSz : Option ℕ) (dist : Option String) (o : Outside 3) (ho : Sound o)
    (hn : 1 ≤ readkw nsol 1) (hsz : 1 ≤ readkw sliceSz 100) (hv : 0 < readkw volTh 0.1) (hv1 : readkw volTh 0.1 ≤ 1)
    (rs : List (Report 3)) (trace : List (List ℤ))
    (h : latCor t py ⟨nsol, volTh, none, sliceSz, dist⟩ o 2 (.list (.float [a])) 3 (.list (.float [b]))
      = .ok (some rs, trace)) (hc : ∀ c ∈ trace, PositiveThenZero c.tail) :
    ∃ s, rs.head? = some s ∧ MakesSystem eig t s.u 3 3 3 0 := by
  have hb0 : 0 < b := by linarith
  obtain ⟨s, h1, -, -, k, h2, -⟩ := C99_lat_cor ht py ha hb0 hab nsol volTh sliceSz dist o ho hn hsz hv hv1 rs trace h hc
  refine ⟨s, h1, ?_⟩
  have h4 : s.u = tetraStretch (Real.sqrt 2 * (b / a)) (b / a) k := h2
  have hx : 1 / 1000 ≤ b / a := by rw [le_div_iff₀ ha]; exact hb
  have hs : Real.sqrt 2 * Real.sqrt 2 = 2 := Real.mul_self_sqrt (by norm_num)
  have hs1 : 14 / 10 ≤ Real.sqrt 2 := by nlinarith [Real.sqrt_nonneg 2]
  have hs2 : Real.sqrt 2 ≤ 15 / 10 := by nlinarith [Real.sqrt_nonneg 2]
  have h3 : ClearlyTetragonal (Real.sqrt 2 * (b / a)) (b / a) := by
    set x := b / a
    refine ⟨?_, by norm_num; linarith, .inl ⟨?_, ?_⟩⟩ <;> norm_num <;> nlinarith
  rw [h4]
  obtain ⟨hα, hγ⟩ := clearly_pos h3
  obtain ⟨vs, g1, g2, -, g4, -⟩ := C101_variants ht h3 k
  exact makes_system (tetraStretch_spd hα hγ _) ⟨vs, g1, g2, g4⟩ (C106_tetragonal eig heig ht h3 _)

/-! ### such calls exist -/

/-- With the tolerances of the code and the default options there is a finished call for an orthorhombic cell. -/
example (py : Py) : SlightEdges 3 (![2.9, 3.1, 3.2] : Fin 3 → ℝ) ∧
    ∃ (o : Outside 3) (rs : List (Report 3)) (trace : List (List ℤ)), Sound o ∧
    latCor .code py {} o 1 (.list (.float [3])) 8 (.list (.float [2.9, 3.1, 3.2])) = .ok (some rs, trace) := by
  have he : SlightEdges 3 (![2.9, 3.1, 3.2] : Fin 3 → ℝ) := by
    constructor
    · intro i; fin_cases i <;> norm_num [abs_le]
    · intro i j; fin_cases i <;> fin_cases j <;> first | exact .inl rfl | (right; norm_num [le_abs])
  refine ⟨he, ?_⟩
  obtain ⟨o, rs, trace, ho, -, h, -⟩ := C100_finished .code py (by norm_num) (slight_close (by norm_num) he)
    (cube_reliable (by norm_num) (.inl rfl)) (slight_reliable (by norm_num) (.inl rfl) he)
  exact ⟨o, rs, trace, ho, h⟩

/-- The same for a tetragonal cell. -/
example (py : Py) : SlightEdges 3 (![2.9, 2.9, 3.2] : Fin 3 → ℝ) ∧
    ∃ (o : Outside 3) (rs : List (Report 3)) (trace : List (List ℤ)), Sound o ∧
    latCor .code py {} o 1 (.list (.float [3])) 6 (.list (.float [2.9, 3.2])) = .ok (some rs, trace) ∧
    ∀ c ∈ trace, PositiveThenZero c.tail := by
  have he : SlightEdges 3 (![2.9, 2.9, 3.2] : Fin 3 → ℝ) := by
    constructor
    · intro i; fin_cases i <;> norm_num [abs_le]
    · intro i j; fin_cases i <;> fin_cases j <;> first | exact .inl rfl | (right; norm_num [le_abs])
  refine ⟨he, ?_⟩
  have hc := slight_close (by norm_num) he
  obtain ⟨CA, cA⟩ := constructs_cubic py (a := 3) (by norm_num)
  obtain ⟨CM, cM⟩ := constructs_tetra py (p := 2.9) (r := 3.2) (by norm_num) (by norm_num)
  have h1 : mismatch ((3 : ℝ) • 1) (Matrix.diagonal ![2.9, 2.9, 3.2]) 1 = cubeDist 3 ![2.9, 2.9, 3.2] :=
    signed_mismatch (fun j => (hc j).1.ne') (by simp) signed_one
  have hlt : mismatch ((3 : ℝ) • 1) (Matrix.diagonal ![2.9, 2.9, 3.2]) 1
      < mismatch ((3 : ℝ) • 1) (Matrix.diagonal ![2.9, 2.9, 3.2]) cubeOff := by
    obtain ⟨l1, l2⟩ := cube_least le_rfl hc (L := cubeOff) (by rw [cubeOff_det]; decide)
    rw [h1]
    exact lt_of_le_of_ne l1 fun h => cubeOff_not (l2 h.symm)
  have hbest : ∀ L : Matrix (Fin 3) (Fin 3) ℤ, L.det ≠ 0 → mismatch ((3 : ℝ) • 1) (Matrix.diagonal ![2.9, 2.9, 3.2]) 1
      ≤ mismatch ((3 : ℝ) • 1) (Matrix.diagonal ![2.9, 2.9, 3.2]) L := fun L hL => by
    rw [h1]
    exact (cube_least le_rfl hc hL).1
  obtain ⟨o, rs, ho, -, hcall, -⟩ := finished_start .code py none 1 6 (.list (.float [3]))
    (.list (.float [2.9, 3.2])) ((3 : ℝ) • (1 : Mat3)) CA (Matrix.diagonal ![2.9, 2.9, 3.2]) CM cA cM
    (cube_reliable (by norm_num) (.inl rfl)) (slight_reliable (by norm_num) (.inl rfl) he)
    (1 : Matrix (Fin 3) (Fin 3) ℤ) cubeOff Matrix.det_one cubeOff_det hbest hlt
  refine ⟨o, rs, _, ho, hcall, ?_⟩
  simp only [List.mem_singleton, forall_eq, PositiveThenZero, List.tail_replicate]
  exact List.pairwise_replicate.mpr (.inr fun h => absurd h (lt_irrefl 0))

end Verif.Props
