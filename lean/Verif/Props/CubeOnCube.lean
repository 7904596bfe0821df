import Verif.Spec.CubeOnCube
import Verif.Props.Bain

/-!
# C100: a cubic lattice whose edges are changed a little

The parent has orthogonal edges of the same length `a`, the product orthogonal edges `e` close to it (tetragonal or
orthorhombic; square and rectangular in two dimensions).
-/

namespace Verif.Props

open Matrix Verif.Spec Verif.Model Verif.Lemmas

variable {N : ℕ}

/-- the squared length of a row in the reciprocal lattice -/
theorem row_gram (a : ℝ) (e : Fin N → ℝ) (L : Matrix (Fin N) (Fin N) ℤ) (he : ∀ j, e j ≠ 0) (i k : Fin N) :
    (a • (1 : Matrix (Fin N) (Fin N) ℝ) * toR L * (Matrix.diagonal e)⁻¹ *
      (a • (1 : Matrix (Fin N) (Fin N) ℝ) * toR L * (Matrix.diagonal e)⁻¹)ᵀ) i k =
      ∑ j, (a / e j) ^ 2 * ((L i j : ℝ) * L k j) := by
  have hinv : (Matrix.diagonal e)⁻¹ = Matrix.diagonal fun j => 1 / e j := by
    apply Matrix.inv_eq_right_inv
    rw [Matrix.diagonal_mul_diagonal, ← Matrix.diagonal_one]
    congr 1
    funext j
    exact mul_one_div_cancel (he j)
  rw [hinv, Matrix.mul_apply]
  refine Finset.sum_congr rfl fun j _ => ?_
  rw [Matrix.transpose_apply, Matrix.mul_diagonal, Matrix.mul_diagonal, Matrix.smul_mul, Matrix.one_mul,
    Matrix.smul_apply, Matrix.smul_apply, smul_eq_mul, smul_eq_mul]
  simp only [toR, Matrix.map_apply]
  ring

theorem cube_mismatch (a : ℝ) (e : Fin N → ℝ) (L : Matrix (Fin N) (Fin N) ℤ) (he : ∀ j, e j ≠ 0) :
    mismatch (a • 1) (Matrix.diagonal e) L =
      ∑ i, ∑ k, (∑ j, (a / e j) ^ 2 * ((L i j : ℝ) * L k j) - (1 : Matrix (Fin N) (Fin N) ℝ) i k) ^ 2 := by
  unfold mismatch
  refine Finset.sum_congr rfl fun i _ => Finset.sum_congr rfl fun k _ => ?_
  rw [Matrix.sub_apply, ← row_gram a e L he]
  rfl

theorem diag_le (A : Matrix (Fin N) (Fin N) ℝ) (i : Fin N) : A i i ^ 2 ≤ ∑ i, ∑ k, A i k ^ 2 :=
  (Finset.single_le_sum (f := fun k => A i k ^ 2) (fun k _ => pow_two_nonneg _) (Finset.mem_univ i)).trans
    (Finset.single_le_sum (f := fun i => ∑ k, A i k ^ 2) (fun i _ => Finset.sum_nonneg fun k _ => pow_two_nonneg _)
      (Finset.mem_univ i))

/-- the distance of the correspondence that maps edges to edges -/
noncomputable def cubeDist (a : ℝ) (e : Fin N → ℝ) : ℝ := ∑ j, ((a / e j) ^ 2 - 1) ^ 2

theorem cubeDist_lt (hN : N ≤ 3) {a : ℝ} {e : Fin N → ℝ} (h : CloseEdges a e) : cubeDist a e < 1 / 4 := by
  have h1 : cubeDist a e ≤ ∑ _j : Fin N, (1 / 16 : ℝ) := by
    refine Finset.sum_le_sum fun j _ => ?_
    have := (h j).2
    rw [← sq_abs]
    have h0 := abs_nonneg ((a / e j) ^ 2 - 1)
    nlinarith
  rw [Finset.sum_const, Finset.card_univ, Fintype.card_fin, nsmul_eq_mul] at h1
  have : (N : ℝ) ≤ 3 := by exact_mod_cast hN
  linarith

/-- the rows have a single entry, plus or minus one -/
def SignedRows (L : Matrix (Fin N) (Fin N) ℤ) : Prop := ∀ i, ∑ j, L i j ^ 2 = 1

/-- a row that is not of this kind is far too long -/
theorem not_signed_far {a : ℝ} {e : Fin N → ℝ} (h : CloseEdges a e) {L : Matrix (Fin N) (Fin N) ℤ} (hL : L.det ≠ 0)
    (hs : ¬ SignedRows L) : 1 / 4 ≤ mismatch (a • 1) (Matrix.diagonal e) L := by
  unfold SignedRows at hs
  push Not at hs
  obtain ⟨i, hi⟩ := hs
  have h2 : 2 ≤ ∑ j, L i j ^ 2 := by
    have h0 : 0 ≤ ∑ j, L i j ^ 2 := Finset.sum_nonneg fun j _ => pow_two_nonneg _
    have h1 : ∑ j, L i j ^ 2 ≠ 0 := by
      intro h0
      rw [Finset.sum_eq_zero_iff_of_nonneg fun j _ => pow_two_nonneg _] at h0
      refine hL (Matrix.det_eq_zero_of_row_eq_zero i fun j => ?_)
      exact pow_eq_zero_iff two_ne_zero |>.mp (h0 j (Finset.mem_univ j))
    omega
  have h2 : (2 : ℝ) ≤ ∑ j, (L i j : ℝ) ^ 2 := by exact_mod_cast h2
  have h3 : (3 / 2 : ℝ) ≤ ∑ j, (a / e j) ^ 2 * ((L i j : ℝ) * L i j) := by
    calc (3 / 2 : ℝ) ≤ 3 / 4 * ∑ j, (L i j : ℝ) ^ 2 := by linarith
      _ = ∑ j, 3 / 4 * (L i j : ℝ) ^ 2 := Finset.mul_sum _ _ _
      _ ≤ _ := by
        refine Finset.sum_le_sum fun j _ => ?_
        have := abs_le.mp (h j).2
        rw [← pow_two]
        exact mul_le_mul_of_nonneg_right (by linarith) (pow_two_nonneg _)
  rw [cube_mismatch a e L fun j => (h j).1.ne']
  refine le_trans ?_ (diag_le (Matrix.of fun i k => ∑ j, (a / e j) ^ 2 * ((L i j : ℝ) * L k j)
    - (1 : Matrix (Fin N) (Fin N) ℝ) i k) i)
  rw [Matrix.of_apply, Matrix.one_apply_eq]
  nlinarith

/-- signed rows of a nonsingular matrix form a signed permutation -/
theorem signed_perm {L : Matrix (Fin N) (Fin N) ℤ} (hL : L.det ≠ 0) (hs : SignedRows L) :
    ∃ σ : Equiv.Perm (Fin N), ∀ i j, L i j ≠ 0 ↔ j = σ i := by
  have key : ∀ i, ∃ j, ∀ k, L i k ≠ 0 ↔ k = j := by
    intro i
    have hne : ∃ j, L i j ≠ 0 := by
      by_contra h
      push Not at h
      exact hL (Matrix.det_eq_zero_of_row_eq_zero i h)
    obtain ⟨j, hj⟩ := hne
    refine ⟨j, fun k => ⟨fun hk => ?_, fun hk => hk ▸ hj⟩⟩
    by_contra hkj
    have h1 : L i j ^ 2 + L i k ^ 2 ≤ ∑ j, L i j ^ 2 := by
      rw [← Finset.sum_pair (f := fun j => L i j ^ 2) (Ne.symm hkj)]
      exact Finset.sum_le_sum_of_subset_of_nonneg (Finset.subset_univ _) fun j _ _ => pow_two_nonneg _
    have h2 : 0 < L i j ^ 2 := by positivity
    have h3 : 0 < L i k ^ 2 := by positivity
    have := hs i
    omega
  choose f hf using key
  have hsq : ∀ i, L i (f i) ^ 2 = 1 := by
    intro i
    rw [← hs i, Finset.sum_eq_single (f i)]
    · intro j _ hj
      have : L i j = 0 := by
        by_contra h
        exact hj ((hf i j).mp h)
      rw [this]; rfl
    · intro h
      exact absurd (Finset.mem_univ _) h
  have hinj : Function.Injective f := by
    intro i k hik
    by_contra hne
    apply hL
    have hz : ∀ m, L i m = L i (f i) * L k (f i) * L k m := by
      intro m
      by_cases hm : m = f i
      · subst hm
        have := hsq k
        rw [← hik] at this
        rw [mul_assoc, ← pow_two, this, mul_one]
      · have h1 : L i m = 0 := by
          by_contra h
          exact hm ((hf i m).mp h)
        have h2 : L k m = 0 := by
          by_contra h
          exact hm (((hf k m).mp h).trans hik.symm)
        rw [h1, h2, mul_zero]
    have e : L = L.updateRow i ((L i (f i) * L k (f i)) • L k) := by
      ext p q
      by_cases hp : p = i
      · subst hp
        rw [Matrix.updateRow_self]
        exact hz q
      · rw [Matrix.updateRow_ne hp]
    rw [e, Matrix.det_updateRow_smul]
    have : (L.updateRow i (L k)).det = 0 := by
      apply Matrix.det_zero_of_row_eq hne
      ext q
      rw [Matrix.updateRow_self, Matrix.updateRow_ne (Ne.symm hne)]
    rw [this, mul_zero]
  refine ⟨Equiv.ofBijective f (Finite.injective_iff_bijective.mp hinj), fun i j => hf i j⟩

/-- the squared lengths for a signed permutation -/
theorem signed_gram {L : Matrix (Fin N) (Fin N) ℤ} (hs : SignedRows L) {σ : Equiv.Perm (Fin N)}
    (hσ : ∀ i j, L i j ≠ 0 ↔ j = σ i) (w : Fin N → ℝ) (i k : Fin N) :
    ∑ j, w j * ((L i j : ℝ) * L k j) = if i = k then w (σ i) else 0 := by
  have h0 : ∀ i j, j ≠ σ i → L i j = 0 := fun i j h => by
    by_contra h'
    exact h ((hσ i j).mp h')
  rw [Finset.sum_eq_single (σ i)]
  · split_ifs with hik
    · subst hik
      have : L i (σ i) ^ 2 = 1 := by
        rw [← hs i, Finset.sum_eq_single (σ i)]
        · intro j _ hj
          rw [h0 i j hj]; rfl
        · intro h
          exact absurd (Finset.mem_univ _) h
      have : (L i (σ i) : ℝ) * L i (σ i) = 1 := by
        rw [← pow_two]
        exact_mod_cast this
      rw [this, mul_one]
    · rw [h0 k (σ i) fun h => hik (σ.injective h)]
      simp
  · intro j _ hj
    rw [h0 i j hj]
    simp
  · intro h
    exact absurd (Finset.mem_univ _) h

theorem signed_mismatch {a : ℝ} {e : Fin N → ℝ} (he : ∀ j, e j ≠ 0) {L : Matrix (Fin N) (Fin N) ℤ} (hL : L.det ≠ 0)
    (hs : SignedRows L) : mismatch (a • 1) (Matrix.diagonal e) L = cubeDist a e := by
  obtain ⟨σ, hσ⟩ := signed_perm hL hs
  rw [cube_mismatch a e L he, cubeDist, ← Equiv.sum_comp σ (fun j => ((a / e j) ^ 2 - 1) ^ 2)]
  refine Finset.sum_congr rfl fun i _ => ?_
  rw [Finset.sum_eq_single i]
  · rw [signed_gram hs hσ (fun j => (a / e j) ^ 2), if_pos rfl, Matrix.one_apply_eq]
  · intro k _ hk
    rw [signed_gram hs hσ (fun j => (a / e j) ^ 2), if_neg (Ne.symm hk), Matrix.one_apply_ne (Ne.symm hk)]
    simp
  · intro h
    exact absurd (Finset.mem_univ _) h

theorem signed_one : SignedRows (1 : Matrix (Fin N) (Fin N) ℤ) := by
  intro i
  rw [Finset.sum_eq_single i]
  · simp
  · intro j _ hj
    simp [Matrix.one_apply_ne (Ne.symm hj)]
  · intro h
    exact absurd (Finset.mem_univ _) h

/-- No correspondence is closer than the one that maps edges to edges; the others are farther. -/
theorem cube_least (hN : N ≤ 3) {a : ℝ} {e : Fin N → ℝ} (h : CloseEdges a e) {L : Matrix (Fin N) (Fin N) ℤ}
    (hL : L.det ≠ 0) : cubeDist a e ≤ mismatch (a • 1) (Matrix.diagonal e) L ∧
      (mismatch (a • 1) (Matrix.diagonal e) L = cubeDist a e → SignedRows L) := by
  by_cases hs : SignedRows L
  · exact ⟨(signed_mismatch (fun j => (h j).1.ne') hL hs).ge, fun _ => hs⟩
  · have h1 := not_signed_far h hL hs
    have h2 := cubeDist_lt hN h
    exact ⟨by linarith, fun h3 => by linarith⟩

/-- **C100**: if the edges of the product, at right angles, are close to the edge of the cubic parent, then the first
solution of a finished call maps the edges to the edges: the stretch is diagonal, with the ratios of the edges in some
order. -/
theorem C100_cube_on_cube {t : Tol} {dim : Option ℕ} {a : ℝ} (ha : 0 < a) {e : Fin (readkw dim 3) → ℝ}
    (he : CloseEdges a e) {n : ℕ} {rs : List (Report (readkw dim 3))}
    (h : Finished t dim (a • 1) (Matrix.diagonal e) n rs) :
    ∃ r, rs.head? = some r ∧ (∃ σ : Equiv.Perm (Fin (readkw dim 3)), r.u = Matrix.diagonal fun i => e (σ i) / a) ∧
      r.d = ∑ j, ((a / e j) ^ 2 - 1) ^ 2 := by
  obtain ⟨-, dM, -, -, hN, hl, GA, GM, -, -, hbest⟩ := finished_best h
  have hN : readkw dim 3 ≤ 3 := by omega
  obtain ⟨CA, CM, hrep⟩ := finished_reports h
  obtain ⟨-, -, -, -, -, -, -, -, -, -, -, -, -, -, -, -, -, -, -, h1, -⟩ := h
  have he0 : ∀ j, e j ≠ 0 := fun j => (he j).1.ne'
  cases rs with
  | nil => exact absurd (h1.trans hl) (Nat.not_succ_le_zero 0)
  | cons r rs =>
    have hr := hbest.dist r List.mem_cons_self
    have hle : r.d ≤ cubeDist a e := by
      rw [← signed_mismatch he0 (L := 1) (by simp) signed_one]
      exact bestList_head hbest (by simp)
    obtain ⟨l1, l2⟩ := cube_least hN he hr.2
    have hd : r.d = cubeDist a e := le_antisymm hle (hr.1 ▸ l1)
    have hs := l2 (hr.1 ▸ hd)
    obtain ⟨σ, hσ⟩ := signed_perm hr.2 hs
    refine ⟨r, rfl, ⟨σ, ?_⟩, hd⟩
    have hc := hrep r List.mem_cons_self
    obtain ⟨F, hF, -, hu⟩ := hc.gradient
    set X := a • (1 : Matrix (Fin (readkw dim 3)) (Fin (readkw dim 3)) ℝ) * toR r.l * (Matrix.diagonal e)⁻¹ with hX
    have hFX : F * X = 1 := by
      rw [hX, ← Matrix.mul_assoc, show F * (a • (1 : Matrix _ _ ℝ) * toR r.l) = Matrix.diagonal e from hF]
      exact Matrix.mul_nonsing_inv _ (isUnit_det_of_ne dM)
    have hXF : X * F = 1 := mul_eq_one_comm.mp hFX
    have hG : X * Xᵀ = Matrix.diagonal fun i => (a / e (σ i)) ^ 2 := by
      ext i k
      rw [hX, row_gram a e r.l he0, signed_gram hs hσ (fun j => (a / e j) ^ 2), Matrix.diagonal_apply]
    have huX : r.u * r.u * (X * Xᵀ) = 1 := by
      rw [hu]
      calc Fᵀ * F * (X * Xᵀ) = Fᵀ * (F * X) * Xᵀ := by simp only [Matrix.mul_assoc]
        _ = (X * F)ᵀ := by rw [hFX, Matrix.mul_one, ← Matrix.transpose_mul]
        _ = 1 := by rw [hXF, Matrix.transpose_one]
    have hD : (Matrix.diagonal fun i => e (σ i) / a) * (Matrix.diagonal fun i => e (σ i) / a) * (X * Xᵀ) = 1 := by
      rw [hG, Matrix.diagonal_mul_diagonal, Matrix.diagonal_mul_diagonal, ← Matrix.diagonal_one]
      congr 1
      funext i
      have := he0 (σ i)
      field_simp
    refine posDef_root_unique hc.posDef (Matrix.PosDef.diagonal fun i => div_pos (he _).1 ha) ?_
    have h1 : X * Xᵀ * (r.u * r.u) = 1 := mul_eq_one_comm.mp huX
    calc r.u * r.u = (Matrix.diagonal fun i => e (σ i) / a) * (Matrix.diagonal fun i => e (σ i) / a) * (X * Xᵀ)
          * (r.u * r.u) := by rw [hD, Matrix.one_mul]
      _ = _ := by rw [Matrix.mul_assoc _ (X * Xᵀ), h1, Matrix.mul_one]

/-! ### Calls with these lattices -/

/-- the base of a primitive cubic cell (type 1) -/
theorem constructs_cubic (py : Py) {a : ℝ} (ha : 0 < a) : ∃ C, Constructs py 1 (.list (.float [a])) 3 (a • 1) C := by
  have hbase : primBase3 py false 1 (Nums.get (.float [a])) = some (a • 1) := by
    simp only [primBase3, Nums.get, Nums.vals]
    norm_num
    ext i j
    fin_cases i <;> fin_cases j <;> simp
  have hdet : (a • (1 : Matrix (Fin 3) (Fin 3) ℝ)).det ≠ 0 := by
    rw [Matrix.det_smul, Matrix.det_one]
    positivity
  refine ⟨(centring3 1)⁻¹, ⟨3, some (a • 1), 1, .float [a], (centring3 1)⁻¹⟩, rfl, ?_, rfl, rfl⟩
  have hch : checkParam (.list (.float [a])) = .ok (.float [a]) := by
    simp only [checkParam]
    rw [if_neg]
    simp [Nums.vals, ha]
  have hi : initBase (some (a • (1 : Matrix (Fin 3) (Fin 3) ℝ))) = .ok () := by
    simp only [initBase]
    rw [lat_new_sq false hdet]
  simp only [BLat.new, hch]
  norm_num [Nums.vals, paramLen3, Nums.isInt, hbase, hi]

/-- the base of a primitive orthorhombic cell (type 8) -/
theorem constructs_ortho (py : Py) {p q r : ℝ} (hp : 0 < p) (hq : 0 < q) (hr : 0 < r) :
    ∃ C, Constructs py 8 (.list (.float [p, q, r])) 3 (Matrix.diagonal ![p, q, r]) C := by
  have hbase : primBase3 py false 8 (Nums.get (.float [p, q, r])) = some (Matrix.diagonal ![p, q, r]) := by
    simp only [primBase3, Nums.get, Nums.vals]
    norm_num
    ext i j
    fin_cases i <;> fin_cases j <;> simp
  have hdet : (Matrix.diagonal ![p, q, r]).det ≠ 0 := by
    simp [Matrix.det_diagonal, Fin.prod_univ_three, hp.ne', hq.ne', hr.ne']
  refine ⟨(centring3 8)⁻¹, ⟨3, some (Matrix.diagonal ![p, q, r]), 8, .float [p, q, r], (centring3 8)⁻¹⟩, rfl, ?_, rfl, rfl⟩
  have hch : checkParam (.list (.float [p, q, r])) = .ok (.float [p, q, r]) := by
    simp only [checkParam]
    rw [if_neg]
    simp only [Nums.vals, List.mem_cons, List.not_mem_nil, or_false, not_exists, not_and, not_le]
    rintro v (rfl | rfl | rfl) <;> assumption
  have hi : initBase (some (Matrix.diagonal ![p, q, r])) = .ok () := by
    simp only [initBase]
    rw [lat_new_sq false hdet]
  simp only [BLat.new, hch]
  norm_num [Nums.vals, paramLen3, Nums.isInt, hbase, hi]
  try exact fun h => absurd rfl h

/-- **C100**: the same for a call with the lattice types 1 and 8. -/
theorem C100_lat_cor {t : Tol} (py : Py) {a p q r : ℝ} (ha : 0 < a) (he : CloseEdges a ![p, q, r])
    (rA : Reliable t (a • 1) candidates3) (rM : Reliable t (Matrix.diagonal ![p, q, r]) candidates3)
    (nsol : Option ℕ) (volTh : Option ℝ) (sliceSz : Option ℕ) (dist : Option String) (o : Outside 3) (ho : Sound o)
    (hn : 1 ≤ readkw nsol 1) (hsz : 1 ≤ readkw sliceSz 100) (hv : 0 < readkw volTh 0.1) (hv1 : readkw volTh 0.1 ≤ 1)
    (rs : List (Report 3)) (trace : List (List ℤ))
    (h : latCor t py ⟨nsol, volTh, none, sliceSz, dist⟩ o 1 (.list (.float [a])) 8 (.list (.float [p, q, r]))
      = .ok (some rs, trace)) (hc : ∀ c ∈ trace, PositiveThenZero c.tail) :
    ∃ s, rs.head? = some s ∧
      (∃ σ : Equiv.Perm (Fin 3), s.u = Matrix.diagonal fun i => (![p, q, r] : Fin 3 → ℝ) (σ i) / a) ∧
      s.d = ((a / p) ^ 2 - 1) ^ 2 + ((a / q) ^ 2 - 1) ^ 2 + ((a / r) ^ 2 - 1) ^ 2 := by
  obtain ⟨CA, cA⟩ := constructs_cubic py ha
  obtain ⟨CM, cM⟩ := constructs_ortho py (he 0).1 (he 1).1 (he 2).1
  have hfin : Finished t none (a • 1) (Matrix.diagonal ![p, q, r]) (readkw nsol 1) rs :=
    ⟨py, nsol, volTh, sliceSz, dist, o, 1, 8, _, _, CA, CM, trace, ho, cA, cM, rA, rM, rfl, hn, hsz, hv, hv1, h, hc⟩
  obtain ⟨s, hs, hu, hd⟩ := C100_cube_on_cube (dim := none) ha he hfin
  refine ⟨s, hs, hu, hd.trans ?_⟩
  exact Fin.sum_univ_three (fun j => ((a / (![p, q, r] : Fin 3 → ℝ) j) ^ 2 - 1) ^ 2)

/-- a shear -/
def cubeOff : Matrix (Fin 3) (Fin 3) ℤ := !![1, 1, 0; 0, 1, 0; 0, 0, 1]

theorem cubeOff_det : cubeOff.det = 1 := by decide

theorem cubeOff_entries : ∀ i j, cubeOff i j = 0 ∨ cubeOff i j = 1 := by
  intro i j
  fin_cases i <;> fin_cases j <;> simp [cubeOff]

theorem cubeOff_not : ¬ SignedRows cubeOff := fun h => by
  have := h 0
  revert this
  decide

/-- The hypotheses of `C100` are met: for all such edges there is a finished call with the default options, all of whose
random numbers are -1, 0 or 1. -/
theorem C100_finished (t : Tol) (py : Py) {a p q r : ℝ} (ha : 0 < a) (he : CloseEdges a ![p, q, r])
    (rA : Reliable t (a • 1) candidates3) (rM : Reliable t (Matrix.diagonal ![p, q, r]) candidates3) :
    ∃ (o : Outside 3) (rs : List (Report 3)) (trace : List (List ℤ)), Sound o ∧ (∀ s ∈ o.shifts, ∀ i j, |s i j| ≤ 1) ∧
      latCor t py {} o 1 (.list (.float [a])) 8 (.list (.float [p, q, r])) = .ok (some rs, trace) ∧
      Finished t none (a • 1) (Matrix.diagonal ![p, q, r]) 1 rs := by
  obtain ⟨CA, cA⟩ := constructs_cubic py ha
  obtain ⟨CM, cM⟩ := constructs_ortho py (he 0).1 (he 1).1 (he 2).1
  have h1 : mismatch (a • 1) (Matrix.diagonal ![p, q, r]) 1 = cubeDist a ![p, q, r] :=
    signed_mismatch (fun j => (he j).1.ne') (by simp) signed_one
  have hbest : ∀ L : Matrix (Fin 3) (Fin 3) ℤ, L.det ≠ 0 →
      mismatch (a • 1) (Matrix.diagonal ![p, q, r]) 1 ≤ mismatch (a • 1) (Matrix.diagonal ![p, q, r]) L := by
    intro L hL
    rw [h1]
    exact (cube_least le_rfl he hL).1
  have hlt : mismatch (a • 1) (Matrix.diagonal ![p, q, r]) 1 < mismatch (a • 1) (Matrix.diagonal ![p, q, r]) cubeOff := by
    obtain ⟨l1, l2⟩ := cube_least le_rfl he (L := cubeOff) (by rw [cubeOff_det]; decide)
    rw [h1]
    exact lt_of_le_of_ne l1 fun h => cubeOff_not (l2 h.symm)
  obtain ⟨o, rs, ho, hs, hcall, hfin⟩ := finished_start t py none 1 8 (.list (.float [a]))
    (.list (.float [p, q, r])) (a • (1 : Matrix (Fin 3) (Fin 3) ℝ)) CA (Matrix.diagonal ![p, q, r]) CM cA cM rA rM
    (1 : Matrix (Fin 3) (Fin 3) ℤ) cubeOff Matrix.det_one cubeOff_det hbest hlt
  refine ⟨o, rs, _, ho, ?_, hcall, hfin⟩
  have hL0 : ∀ i j, startL0 (a • 1) (Matrix.diagonal ![p, q, r]) i j = if i = j then ⌊(![p, q, r] : Fin 3 → ℝ) i / a⌋ else 0 := by
    intro i j
    have hinv : (a • (1 : Matrix (Fin 3) (Fin 3) ℝ))⁻¹ = (1 / a) • 1 := by
      apply Matrix.inv_eq_right_inv
      rw [Matrix.smul_mul, Matrix.mul_smul, Matrix.one_mul, smul_smul, mul_one_div_cancel ha.ne', one_smul]
    unfold startL0
    rw [hinv, Matrix.smul_mul, Matrix.one_mul, Matrix.of_apply, Matrix.smul_apply, Matrix.diagonal_apply, smul_eq_mul]
    split_ifs
    · congr 1
      ring
    · simp
  have hfl : ∀ i, ⌊(![p, q, r] : Fin 3 → ℝ) i / a⌋ = 0 ∨ ⌊(![p, q, r] : Fin 3 → ℝ) i / a⌋ = 1 := by
    intro i
    obtain ⟨e0, e1⟩ := he i
    generalize (![p, q, r] : Fin 3 → ℝ) i = e at e0 e1
    have h0 : 0 ≤ ⌊e / a⌋ := Int.floor_nonneg.mpr (by positivity)
    have h2 : ⌊e / a⌋ < 2 := by
      rw [Int.floor_lt]
      push_cast
      rw [div_lt_iff₀ ha]
      by_contra hge
      push Not at hge
      have h3 : a / e ≤ 1 / 2 := by
        rw [div_le_iff₀ e0]
        linarith
      have h4 : 0 < a / e := by positivity
      have := (abs_le.mp e1).1
      nlinarith
    omega
  intro s h i j
  replace hs : s = 1 - startL0 (a • 1) (Matrix.diagonal ![p, q, r]) ∨ s = cubeOff - startL0 (a • 1) (Matrix.diagonal ![p, q, r]) :=
    hs s h
  rcases hs with rfl | rfl
  · rw [Matrix.sub_apply, hL0, Matrix.one_apply]
    rcases hfl i with h | h <;> split_ifs <;> simp [h]
  · rw [Matrix.sub_apply, hL0]
    rcases cubeOff_entries i j with h' | h' <;> rcases hfl i with h | h <;> rw [h', h] <;> split_ifs <;> norm_num

/-- an orthorhombic martensite -/
example (py : Py) : ∃ (o : Outside 3) (rs : List (Report 3)) (trace : List (List ℤ)), Sound o ∧
    latCor .exact py {} o 1 (.list (.float [3])) 8 (.list (.float [2.9, 3.1, 3.2])) = .ok (some rs, trace) ∧
    ∃ s, rs.head? = some s ∧
      ∃ σ : Equiv.Perm (Fin 3), s.u = Matrix.diagonal fun i => (![2.9, 3.1, 3.2] : Fin 3 → ℝ) (σ i) / 3 := by
  have he : CloseEdges 3 (![2.9, 3.1, 3.2] : Fin 3 → ℝ) := by
    intro j
    fin_cases j <;> refine ⟨by norm_num, ?_⟩ <;> norm_num [abs_le]
  obtain ⟨o, rs, trace, ho, -, h, hf⟩ := C100_finished .exact py (by norm_num) he (.inl rfl) (.inl rfl)
  obtain ⟨s, hs, hk, -⟩ := C100_cube_on_cube (dim := none) (by norm_num) he hf
  exact ⟨o, rs, trace, ho, h, s, hs, hk⟩

end Verif.Props
