import Verif.Model.Lattice
import Verif.Spec.Lattice
import Verif.Spec.MatGroup
import Verif.Lemmas.Hnf

namespace Verif.Lemmas

open Matrix Verif.Spec Verif.Model

variable {n : ℕ}

/-! ### Rounding -/

theorem roundEven_intCast (z : ℤ) : roundEven (z : ℝ) = z := by
  unfold roundEven
  rw [Int.fract_intCast, if_neg (by norm_num)]
  simp

theorem roundEven_of_near {x : ℝ} {z : ℤ} (h : |x - z| < 1 / 2) : roundEven x = z := by
  have h' := abs_lt.mp h
  unfold roundEven
  split_ifs with h1 h2
  · exfalso
    have e := Int.self_sub_floor x
    rw [h1] at e
    have a : ((⌊x⌋ - z : ℤ) : ℝ) < 0 := by push_cast; linarith
    have b : (-1 : ℝ) < ((⌊x⌋ - z : ℤ) : ℝ) := by push_cast; linarith
    have a' : ⌊x⌋ - z < 0 := by exact_mod_cast a
    have b' : -1 < ⌊x⌋ - z := by exact_mod_cast b
    omega
  · exfalso
    have e := Int.self_sub_floor x
    rw [h1] at e
    have a : ((⌊x⌋ - z : ℤ) : ℝ) < 0 := by push_cast; linarith
    have b : (-1 : ℝ) < ((⌊x⌋ - z : ℤ) : ℝ) := by push_cast; linarith
    have a' : ⌊x⌋ - z < 0 := by exact_mod_cast a
    have b' : -1 < ⌊x⌋ - z := by exact_mod_cast b
    omega
  · rw [round_eq, Int.floor_eq_iff]
    constructor <;> linarith

theorem rintMat_toR {m k : ℕ} (A : Matrix (Fin m) (Fin k) ℤ) : rintMat (toR A) = A := by
  ext i j
  simp [rintMat, toR, roundEven_intCast]

theorem isIntegral_iff {m k : ℕ} (A : Matrix (Fin m) (Fin k) ℝ) :
    IsIntegral A ↔ ∃ B : Matrix (Fin m) (Fin k) ℤ, A = toR B := by
  constructor
  · intro h
    choose f hf using h
    exact ⟨f, by ext i j; exact hf i j⟩
  · rintro ⟨B, rfl⟩ i j
    exact ⟨B i j, by simp [toR]⟩

theorem isIntegral_iff_rint {m k : ℕ} (A : Matrix (Fin m) (Fin k) ℝ) :
    IsIntegral A ↔ toR (rintMat A) = A := by
  rw [isIntegral_iff]
  constructor
  · rintro ⟨B, rfl⟩; rw [rintMat_toR]
  · intro h; exact ⟨_, h.symm⟩

theorem toR_mul (A B : Matrix (Fin n) (Fin n) ℤ) : toR (A * B) = toR A * toR B := by
  unfold toR
  exact Matrix.map_mul (f := Int.castRingHom ℝ)

theorem toR_one : toR (1 : Matrix (Fin n) (Fin n) ℤ) = 1 := by
  simp [toR, Matrix.map_one]

theorem toR_injective {m k : ℕ} : Function.Injective (toR : Matrix (Fin m) (Fin k) ℤ → _) := by
  intro A B h
  ext i j
  have := congrFun (congrFun h i) j
  simpa [toR] using this

theorem toR_det (A : Matrix (Fin n) (Fin n) ℤ) : (toR A).det = A.det := by
  have := (Int.castRingHom ℝ).map_det A
  simpa [toR, RingHom.mapMatrix_apply] using this.symm

theorem toR_transpose (A : Matrix (Fin n) (Fin n) ℤ) : toR Aᵀ = (toR A)ᵀ := by
  ext i j; simp [toR]

/-! ### Lattice points -/

theorem isUnit_det_of_ne {E : Matrix (Fin n) (Fin n) ℝ} (hE : E.det ≠ 0) : IsUnit E.det :=
  isUnit_iff_ne_zero.mpr hE

theorem latticePoints_subset_iff {E1 E2 : Matrix (Fin n) (Fin n) ℝ} (h1 : E1.det ≠ 0) :
    latticePoints E2 ⊆ latticePoints E1 ↔ IsIntegral (E1⁻¹ * E2) := by
  constructor
  · intro h i j
    obtain ⟨c, hc⟩ := h ⟨Pi.single j 1, rfl⟩
    have e : (fun i => ((Pi.single j (1 : ℤ) : Fin n → ℤ) i : ℝ)) = Pi.single j (1 : ℝ) := by
      ext k
      by_cases hk : k = j
      · subst hk; simp
      · simp [hk]
    rw [e, Matrix.mulVec_single_one] at hc
    refine ⟨c i, ?_⟩
    have h2 : E1⁻¹ *ᵥ (E2.col j) = fun i => (c i : ℝ) := by
      rw [hc, Matrix.mulVec_mulVec, Matrix.nonsing_inv_mul _ (isUnit_det_of_ne h1), Matrix.one_mulVec]
    have := congrFun h2 i
    rw [← this]
    simp [Matrix.mulVec, dotProduct, Matrix.mul_apply]
  · intro h x hx
    obtain ⟨c, rfl⟩ := hx
    obtain ⟨B, hB⟩ := (isIntegral_iff _).mp h
    refine ⟨B *ᵥ c, ?_⟩
    have e : (fun i => ((B *ᵥ c) i : ℝ)) = toR B *ᵥ (fun i => (c i : ℝ)) := by
      ext i
      simp [Matrix.mulVec, dotProduct, toR]
    rw [e, ← hB, Matrix.mulVec_mulVec, ← Matrix.mul_assoc,
      Matrix.mul_nonsing_inv _ (isUnit_det_of_ne h1), Matrix.one_mul]

theorem image_latticePoints (Q E : Matrix (Fin n) (Fin n) ℝ) :
    (fun x => Q *ᵥ x) '' latticePoints E = latticePoints (Q * E) := by
  ext x
  constructor
  · rintro ⟨_, ⟨c, rfl⟩, rfl⟩
    exact ⟨c, by simp [Matrix.mulVec_mulVec]⟩
  · rintro ⟨c, rfl⟩
    exact ⟨_, ⟨c, rfl⟩, by simp [Matrix.mulVec_mulVec]⟩

theorem det_sq_of_ortho {Q : Matrix (Fin n) (Fin n) ℝ} (h : Q * Qᵀ = 1) : Q.det * Q.det = 1 := by
  have := congrArg Matrix.det h
  rwa [Matrix.det_mul, Matrix.det_transpose, Matrix.det_one] at this

theorem abs_det_of_ortho {Q : Matrix (Fin n) (Fin n) ℝ} (h : Q * Qᵀ = 1) : |Q.det| = 1 := by
  have := det_sq_of_ortho h
  rw [← abs_mul_abs_self] at this
  have h0 := abs_nonneg Q.det
  nlinarith

theorem inPointGroup_iff {E Q : Matrix (Fin n) (Fin n) ℝ} (hE : E.det ≠ 0) :
    InPointGroup E Q ↔ Q * Qᵀ = 1 ∧ IsIntegral (E⁻¹ * (Q * E)) := by
  unfold InPointGroup
  rw [image_latticePoints]
  constructor
  · rintro ⟨h1, h2⟩
    exact ⟨h1, (latticePoints_subset_iff hE).mp h2.le⟩
  · rintro ⟨h1, h2⟩
    refine ⟨h1, Set.Subset.antisymm ((latticePoints_subset_iff hE).mpr h2) ?_⟩
    have hQ : Q.det ≠ 0 := by
      intro h0
      have := det_sq_of_ortho h1
      rw [h0] at this
      simp at this
    have hQE : (Q * E).det ≠ 0 := by rw [Matrix.det_mul]; exact mul_ne_zero hQ hE
    rw [latticePoints_subset_iff hQE]
    obtain ⟨B, hB⟩ := (isIntegral_iff _).mp h2
    have hdet : (B.det : ℝ) * B.det = 1 := by
      rw [← toR_det, ← hB, Matrix.det_mul, Matrix.det_mul, Matrix.det_nonsing_inv]
      have : Ring.inverse E.det * E.det = 1 := Ring.inverse_mul_cancel _ (isUnit_det_of_ne hE)
      calc Ring.inverse E.det * (Q.det * E.det) * (Ring.inverse E.det * (Q.det * E.det))
          = (Ring.inverse E.det * E.det) * (Ring.inverse E.det * E.det) * (Q.det * Q.det) := by ring
        _ = 1 := by rw [this, det_sq_of_ortho h1]; norm_num
    have hdet' : B.det * B.det = 1 := by exact_mod_cast hdet
    obtain ⟨V, -, hV, -⟩ := unimodular_exists_inv (unimodular_of_isUnit (IsUnit.of_mul_eq_one _ hdet'))
    rw [isIntegral_iff]
    refine ⟨V, ?_⟩
    have hQEB : Q * E = E * toR B := by
      rw [← hB, ← Matrix.mul_assoc, Matrix.mul_nonsing_inv _ (isUnit_det_of_ne hE), Matrix.one_mul]
    have hEV : E = Q * E * toR V := by
      rw [hQEB, Matrix.mul_assoc, ← toR_mul, hV, toR_one, Matrix.mul_one]
    calc (Q * E)⁻¹ * E = (Q * E)⁻¹ * (Q * E * toR V) := by rw [← hEV]
      _ = toR V := by
        rw [← Matrix.mul_assoc, Matrix.nonsing_inv_mul _ (isUnit_det_of_ne hQE), Matrix.one_mul]

/-! ### Tolerances -/

/-- Both tolerances are non-negative. -/
def TolOK (t : Tol) : Prop := 0 ≤ t.atol ∧ 0 ≤ t.rtol

theorem tolOK_code : TolOK Tol.code := by constructor <;> simp [Tol.code]
theorem tolOK_exact : TolOK Tol.exact := ⟨le_rfl, le_rfl⟩

theorem allclose_self {t : Tol} (ht : TolOK t) {m k : ℕ} (A : Matrix (Fin m) (Fin k) ℝ) :
    allclose t A A := by
  intro i j
  rw [sub_self, abs_zero]
  exact add_nonneg ht.1 (mul_nonneg ht.2 (abs_nonneg _))

theorem allclose_exact {m k : ℕ} (A B : Matrix (Fin m) (Fin k) ℝ) :
    allclose Tol.exact A B ↔ A = B := by
  constructor
  · intro h
    ext i j
    have := h i j
    simp only [Tol.exact, zero_mul, add_zero] at this
    exact sub_eq_zero.mp (abs_eq_zero.mp (le_antisymm this (abs_nonneg _)))
  · rintro rfl
    exact allclose_self tolOK_exact A

theorem eqTest_exact (E1 E2 : Matrix (Fin n) (Fin n) ℝ) :
    eqTest Tol.exact E1 E2 = true ↔ IsIntegral (E1⁻¹ * E2) := by
  simp only [eqTest, decide_eq_true_eq, allclose_exact]
  rw [isIntegral_iff_rint, eq_comm]

theorem eqTest_of_integral {t : Tol} (ht : TolOK t) {E1 E2 : Matrix (Fin n) (Fin n) ℝ}
    (h : IsIntegral (E1⁻¹ * E2)) : eqTest t E1 E2 = true := by
  simp only [eqTest, decide_eq_true_eq]
  rw [(isIntegral_iff_rint _).mp h]
  exact allclose_self ht _

theorem inO3_of_ortho {t : Tol} (ht : TolOK t) (b : Bool) {Q : Matrix (Fin n) (Fin n) ℝ}
    (h : Q * Qᵀ = 1) : inO3 t b Q = true := by
  cases b
  · simp only [inO3, Bool.false_eq_true, if_false, decide_eq_true_eq, h, abs_det_of_ortho h]
    exact ⟨by norm_num, allclose_self ht _⟩
  · simp [inO3, h, abs_det_of_ortho h]

theorem inO3_exact (b : Bool) (Q : Matrix (Fin n) (Fin n) ℝ) :
    inO3 Tol.exact b Q = true ↔ Q * Qᵀ = 1 := by
  refine ⟨?_, inO3_of_ortho tolOK_exact b⟩
  cases b
  · simp only [inO3, Bool.false_eq_true, if_false, decide_eq_true_eq, allclose_exact]
    exact fun h => h.2
  · simp only [inO3, if_true, decide_eq_true_eq]
    exact fun h => h.2

theorem inO3_det {t : Tol} {b : Bool} {Q : Matrix (Fin n) (Fin n) ℝ} (h : inO3 t b Q = true) :
    Q.det ≠ 0 := by
  intro h0
  cases b
  · simp only [inO3, Bool.false_eq_true, if_false, decide_eq_true_eq, h0] at h
    have := h.1
    norm_num at this
  · simp only [inO3, if_true, decide_eq_true_eq, h0] at h
    have := h.1
    norm_num at this

/-- Accepted by the comparison of the code: every entry is within tolerance of some integer. -/
theorem eqTest_code_of_near {E1 E2 : Matrix (Fin n) (Fin n) ℝ}
    (h : ∀ i j, ∃ z : ℤ, |(E1⁻¹ * E2) i j - z| < 1 / 2 ∧
      |(E1⁻¹ * E2) i j - z| ≤ 1 / 10 ^ 8 + 1 / 10 ^ 5 * |(z : ℝ)|) : eqTest .code E1 E2 = true := by
  simp only [eqTest, decide_eq_true_eq]
  intro i j
  obtain ⟨z, h1, h2⟩ := h i j
  simpa [toR, rintMat, roundEven_of_near h1, Tol.code] using h2

/-- Rejected by both comparisons: some entry is out of tolerance of every integer. -/
theorem eqTest_of_far {t : Tol} (ht : t = .code ∨ t = .exact) {E1 E2 : Matrix (Fin n) (Fin n) ℝ}
    {i j : Fin n} (h : ∀ z : ℤ, 1 / 10 ^ 8 + 1 / 10 ^ 5 * |(z : ℝ)| < |(E1⁻¹ * E2) i j - z|) :
    eqTest t E1 E2 = false := by
  simp only [eqTest, decide_eq_false_iff_not]
  intro hc
  have h1 := hc i j
  have h2 := h (rintMat (E1⁻¹ * E2) i j)
  simp only [toR, Matrix.map_apply] at h1
  rcases ht with rfl | rfl
  · simp only [Tol.code] at h1
    linarith
  · simp only [Tol.exact] at h1
    have := abs_nonneg ((rintMat (E1⁻¹ * E2) i j : ℤ) : ℝ)
    nlinarith

/-- Numbers well inside a unit interval are out of tolerance of every integer. -/
theorem far_of_between {x : ℝ} (k : ℤ) (hk : |(k : ℝ)| ≤ 5) (h1 : k + 1 / 100 ≤ x)
    (h2 : x ≤ k + 99 / 100) (z : ℤ) : 1 / 10 ^ 8 + 1 / 10 ^ 5 * |(z : ℝ)| < |x - z| := by
  have hz : (1 : ℝ) / 100 ≤ |x - z| := by
    rcases le_or_gt z k with h | h
    · have : (z : ℝ) ≤ k := by exact_mod_cast h
      rw [abs_of_nonneg (by linarith)]; linarith
    · have : (k : ℝ) + 1 ≤ z := by exact_mod_cast h
      rw [abs_sub_comm, abs_of_nonneg (by linarith)]; linarith
  have hx : |x| ≤ 6 := by
    have := abs_le.mp hk
    rw [abs_le]; constructor <;> linarith
  have : |(z : ℝ)| ≤ |x| + |x - z| := by
    have := abs_sub_abs_le_abs_sub (z : ℝ) x
    rw [abs_sub_comm] at this
    linarith
  linarith

/-! ### The constructor and the predicates -/

theorem castSq_rfl (M : Matrix (Fin n) (Fin n) ℝ) : castSq rfl rfl M = M := by
  ext i j; rfl

theorem lat_new_sq (b : Bool) {M : Matrix (Fin n) (Fin n) ℝ} (h : M.det ≠ 0) :
    Lat.new (.mat n n b M) = .ok ⟨n, M⟩ := by
  have : ¬ M.det ^ 2 ≤ 0 := not_le.mpr (by positivity)
  simp [Lat.new, castSq_rfl, this]

theorem lat_eq_sq (t : Tol) (E1 E2 : Matrix (Fin n) (Fin n) ℝ) :
    Lat.eq t ⟨n, E1⟩ ⟨n, E2⟩ = eqTest t E1 E2 := by
  simp [Lat.eq, Lat.base, castSq_rfl]

theorem inPointGroup_sq (t : Tol) {E : Matrix (Fin n) (Fin n) ℝ} (hE : E.det ≠ 0) (b : Bool)
    (Q : Matrix (Fin n) (Fin n) ℝ) :
    Lat.inPointGroup t ⟨n, E⟩ (.mat n n b Q) = .ok (inO3 t b Q && eqTest t E (Q * E)) := by
  simp only [Lat.inPointGroup, dif_pos, castSq_rfl]
  by_cases h : inO3 t b Q = true
  · have hQE : (Q * E).det ≠ 0 := by
      rw [Matrix.det_mul]; exact mul_ne_zero (inO3_det h) hE
    rw [if_pos h, lat_new_sq false hQE, h]
    simp [Lat.eq, Lat.base, castSq_rfl]
  · rw [if_neg h]
    simp [Bool.eq_false_iff.mpr h]

/-- The test applied by the group filters to a member of a table. -/
noncomputable def passes (t : Tol) (E : Matrix (Fin n) (Fin n) ℝ) (Q : NMat n) : Bool :=
  match Q with
  | .int M => inO3 t true (toR M) && eqTest t E (toR M * E)
  | .float M => inO3 t false M && eqTest t E (M * E)

theorem passes_of_sym {t : Tol} (ht : TolOK t) {E : Matrix (Fin n) (Fin n) ℝ} (hE : E.det ≠ 0)
    (Q : NMat n) (h : InPointGroup E Q.val) : passes t E Q = true := by
  obtain ⟨h1, h2⟩ := (inPointGroup_iff hE).mp h
  cases Q with
  | int M =>
    simp only [passes, Bool.and_eq_true]
    exact ⟨inO3_of_ortho ht _ h1, eqTest_of_integral ht h2⟩
  | float M =>
    simp only [passes, Bool.and_eq_true]
    exact ⟨inO3_of_ortho ht _ h1, eqTest_of_integral ht h2⟩

theorem passes_exact {E : Matrix (Fin n) (Fin n) ℝ} (hE : E.det ≠ 0) (Q : NMat n) :
    passes Tol.exact E Q = true ↔ InPointGroup E Q.val := by
  rw [inPointGroup_iff hE]
  cases Q with
  | int M => simp only [passes, Bool.and_eq_true, inO3_exact, eqTest_exact]; rfl
  | float M => simp only [passes, Bool.and_eq_true, inO3_exact, eqTest_exact]; rfl

theorem filter_ok (t : Tol) {E : Matrix (Fin n) (Fin n) ℝ} (hE : E.det ≠ 0) :
    ∀ G : List (NMat n), Lat.filter t ⟨n, E⟩ G = .ok ((G.filter (passes t E)).map NMat.val)
  | [] => rfl
  | Q :: Qs => by
    have h : Lat.inPointGroup t ⟨n, E⟩ Q.arr = .ok (passes t E Q) := by
      cases Q <;> exact inPointGroup_sq t hE _ _
    simp only [Lat.filter, h, filter_ok t hE Qs, List.filter_cons]
    cases passes t E Q <;> simp

theorem select_ok (t : Tol) {E : Matrix (Fin n) (Fin n) ℝ} (hE : E.det ≠ 0) (G H : List (NMat n))
    (k : ℕ) : ∃ T, (T = G ∨ T = H) ∧
      Lat.select t ⟨n, E⟩ G H k = .ok ((T.filter (passes t E)).map NMat.val) := by
  simp only [Lat.select, filter_ok t hE]
  by_cases h : ((G.filter (passes t E)).map NMat.val).length = k
  · rw [if_pos h]
    by_cases h' : ((G.filter (passes t E)).map NMat.val).length
        < ((H.filter (passes t E)).map NMat.val).length
    · exact ⟨H, .inr rfl, by rw [if_pos h']⟩
    · exact ⟨G, .inl rfl, by rw [if_neg h']⟩
  · exact ⟨G, .inl rfl, by rw [if_neg h]⟩

/-! ### Groups -/

theorem inPointGroup_one (E : Matrix (Fin n) (Fin n) ℝ) : InPointGroup E 1 := by
  constructor
  · simp
  · simp

theorem inPointGroup_mul {E A B : Matrix (Fin n) (Fin n) ℝ} (hA : InPointGroup E A)
    (hB : InPointGroup E B) : InPointGroup E (A * B) := by
  constructor
  · rw [Matrix.transpose_mul, Matrix.mul_assoc, ← Matrix.mul_assoc B, hB.1, Matrix.one_mul, hA.1]
  · have : (fun x => (A * B) *ᵥ x) = (fun x => A *ᵥ x) ∘ (fun x => B *ᵥ x) := by
      ext x; simp [Matrix.mulVec_mulVec]
    rw [this, Set.image_comp, hB.2, hA.2]

theorem inPointGroup_inv {E A B : Matrix (Fin n) (Fin n) ℝ} (hA : InPointGroup E A)
    (hAB : A * B = 1) : InPointGroup E B := by
  have hB : B = Aᵀ := by
    calc B = (Aᵀ * A) * B := by rw [mul_eq_one_comm.mp hA.1, Matrix.one_mul]
      _ = Aᵀ := by rw [Matrix.mul_assoc, hAB, Matrix.mul_one]
  constructor
  · rw [hB, Matrix.transpose_transpose]; exact mul_eq_one_comm.mp hA.1
  · conv_lhs => rw [← hA.2]
    rw [← Set.image_comp]
    have : ((fun x => B *ᵥ x) ∘ fun x => A *ᵥ x) = id := by
      ext x; simp [Matrix.mulVec_mulVec, mul_eq_one_comm.mp hAB]
    rw [this, Set.image_id]

theorem inPointGroup_neg {E A : Matrix (Fin n) (Fin n) ℝ} (hA : InPointGroup E A) :
    InPointGroup E (-A) := by
  have hneg : InPointGroup E (-1) := by
    constructor
    · simp
    · ext x
      constructor
      · rintro ⟨_, ⟨c, rfl⟩, rfl⟩
        exact ⟨-c, by simp only [neg_mulVec, Matrix.one_mulVec]; ext i; simp [Matrix.mulVec, dotProduct]⟩
      · rintro ⟨c, rfl⟩
        exact ⟨_, ⟨-c, rfl⟩, by
          simp only [neg_mulVec, Matrix.one_mulVec]; ext i; simp [Matrix.mulVec, dotProduct]⟩
  have := inPointGroup_mul hneg hA
  simpa using this

/-- Filtering a group by membership in the point group gives a group of symmetries. -/
theorem filter_symmetryGroup {E : Matrix (Fin n) (Fin n) ℝ} (G : List (NMat n)) (P : NMat n → Bool)
    (hG : IsMatGroup (G.map NMat.val)) (hnd : (G.map NMat.val).Nodup)
    (hP : ∀ Q ∈ G, P Q = true ↔ InPointGroup E Q.val) :
    IsSymmetryGroup E ((G.filter P).map NMat.val) := by
  have hmem : ∀ A, A ∈ (G.filter P).map NMat.val ↔ A ∈ G.map NMat.val ∧ InPointGroup E A := by
    intro A
    simp only [List.mem_map, List.mem_filter]
    constructor
    · rintro ⟨Q, ⟨hQ, hp⟩, rfl⟩
      exact ⟨⟨Q, hQ, rfl⟩, (hP Q hQ).mp hp⟩
    · rintro ⟨⟨Q, hQ, rfl⟩, hs⟩
      exact ⟨Q, ⟨hQ, (hP Q hQ).mpr hs⟩, rfl⟩
  refine ⟨?_, ?_, ?_, ?_, ?_⟩
  · exact hnd.sublist (List.filter_sublist.map _)
  · exact (hmem 1).mpr ⟨hG.one_mem, inPointGroup_one E⟩
  · intro A hA B hB
    rw [hmem] at *
    exact ⟨hG.mul_mem _ hA.1 _ hB.1, inPointGroup_mul hA.2 hB.2⟩
  · intro A hA
    rw [hmem] at hA
    obtain ⟨B, hB, hAB⟩ := hG.inv_mem A hA.1
    exact ⟨B, (hmem B).mpr ⟨hB, inPointGroup_inv hA.2 hAB⟩, hAB⟩
  · intro A hA
    exact ((hmem A).mp hA).2

/-! ### The tables -/

theorem isMatGroup_map {R S : Type} [CommRing R] [CommRing S] {G : List (Matrix (Fin n) (Fin n) R)}
    (hG : IsMatGroup G) (f : Matrix (Fin n) (Fin n) R → Matrix (Fin n) (Fin n) S)
    (h1 : f 1 = 1) (hm : ∀ A B, f (A * B) = f A * f B) : IsMatGroup (G.map f) := by
  refine ⟨List.mem_map.mpr ⟨1, hG.one_mem, h1⟩, ?_, ?_⟩
  · intro A hA B hB
    obtain ⟨A', hA', rfl⟩ := List.mem_map.mp hA
    obtain ⟨B', hB', rfl⟩ := List.mem_map.mp hB
    exact List.mem_map.mpr ⟨A' * B', hG.mul_mem _ hA' _ hB', hm _ _⟩
  · intro A hA
    obtain ⟨A', hA', rfl⟩ := List.mem_map.mp hA
    obtain ⟨B', hB', h⟩ := hG.inv_mem A' hA'
    exact ⟨f B', List.mem_map.mpr ⟨B', hB', rfl⟩, by rw [← hm, h, h1]⟩

theorem map_int_val (G : List (Matrix (Fin n) (Fin n) ℤ)) :
    (G.map NMat.int).map NMat.val = G.map toR := by
  rw [List.map_map]; rfl

theorem cubic_group : IsMatGroup cubicLaue :=
  ⟨by decide +kernel, by unfold cubicLaue; decide +kernel, by unfold cubicLaue; decide +kernel⟩

theorem squareExt_group : IsMatGroup squareExt :=
  ⟨by decide +kernel, by unfold squareExt; decide +kernel, by unfold squareExt; decide +kernel⟩

theorem squareRot_group : IsMatGroup squareRot :=
  ⟨by decide +kernel, by unfold squareRot squareExt; decide +kernel,
    by unfold squareRot squareExt; decide +kernel⟩

theorem hexC_eq : hexC = 1 / 2 := by rw [hexC, Real.cos_pi_div_three]

theorem hexS_sq : hexS * hexS = 3 / 4 := by
  rw [hexS, Real.sin_pi_div_three]
  have := Real.mul_self_sqrt (show (0 : ℝ) ≤ 3 by norm_num)
  linarith

theorem hexS_pos : 0 < hexS := by
  rw [hexS, Real.sin_pi_div_three]; positivity

/-- `HEX_LAUE_GROUP` written in the basis of the hexagonal lattice. -/
def hexInt : List (Matrix (Fin 3) (Fin 3) ℤ) := [
  !![1, 0, 0; 0, 1, 0; 0, 0, 1],
  !![1, -1, 0; 0, -1, 0; 0, 0, -1],
  !![-1, 1, 0; 0, 1, 0; 0, 0, -1],
  !![-1, 0, 0; 0, -1, 0; 0, 0, 1],
  !![1, -1, 0; 1, 0, 0; 0, 0, 1],
  !![0, 1, 0; -1, 1, 0; 0, 0, 1],
  !![0, -1, 0; 1, -1, 0; 0, 0, 1],
  !![-1, 1, 0; -1, 0, 0; 0, 0, 1],
  !![0, -1, 0; -1, 0, 0; 0, 0, -1],
  !![1, 0, 0; 1, -1, 0; 0, 0, -1],
  !![-1, 0, 0; -1, 1, 0; 0, 0, -1],
  !![0, 1, 0; 1, 0, 0; 0, 0, -1]]

/-- `HEX2D_EXT_GROUP` written in the basis of the hexagonal lattice. -/
def hex2dInt : List (Matrix (Fin 2) (Fin 2) ℤ) := [
  !![1, 0; 0, 1], !![1, -1; 1, 0], !![0, -1; 1, -1], !![-1, 0; 0, -1], !![0, 1; -1, 1],
  !![-1, 1; -1, 0], !![1, -1; 0, -1], !![0, -1; -1, 0], !![1, 0; 1, -1], !![-1, 1; 0, 1],
  !![-1, 0; -1, 1], !![0, 1; 1, 0]]

theorem hexInt_group : IsMatGroup hexInt :=
  ⟨by decide +kernel, by unfold hexInt; decide +kernel, by unfold hexInt; decide +kernel⟩

theorem hex2dInt_group : IsMatGroup hex2dInt :=
  ⟨by decide +kernel, by unfold hex2dInt; decide +kernel, by unfold hex2dInt; decide +kernel⟩

theorem hex2dRotInt_group : IsMatGroup (hex2dInt.take 6) :=
  ⟨by decide +kernel, by unfold hex2dInt; decide +kernel, by unfold hex2dInt; decide +kernel⟩

/-- A hexagonal basis. -/
noncomputable def hexB : Matrix (Fin 3) (Fin 3) ℝ := !![1, -1 / 2, 0; 0, hexS, 0; 0, 0, 1]

/-- A hexagonal basis of the plane. -/
noncomputable def hexB2 : Matrix (Fin 2) (Fin 2) ℝ := !![1, -1 / 2; 0, hexS]

theorem hexB_det : hexB.det ≠ 0 := by
  simp [hexB, Matrix.det_fin_three, hexS_pos.ne']

theorem hexB2_det : hexB2.det ≠ 0 := by
  simp [hexB2, Matrix.det_fin_two, hexS_pos.ne']

/-- Change of basis. -/
noncomputable def conjB (B : Matrix (Fin n) (Fin n) ℝ) (M : Matrix (Fin n) (Fin n) ℤ) :
    Matrix (Fin n) (Fin n) ℝ := B * toR M * B⁻¹

theorem conjB_mul {B : Matrix (Fin n) (Fin n) ℝ} (hB : B.det ≠ 0) (M N : Matrix (Fin n) (Fin n) ℤ) :
    conjB B (M * N) = conjB B M * conjB B N := by
  unfold conjB
  rw [toR_mul]
  have : B⁻¹ * (B * toR N * B⁻¹) = toR N * B⁻¹ := by
    rw [← Matrix.mul_assoc, ← Matrix.mul_assoc, Matrix.nonsing_inv_mul _ (isUnit_det_of_ne hB),
      Matrix.one_mul]
  rw [Matrix.mul_assoc (B * toR M), this]
  simp only [Matrix.mul_assoc]

theorem conjB_one {B : Matrix (Fin n) (Fin n) ℝ} (hB : B.det ≠ 0) : conjB B 1 = 1 := by
  unfold conjB
  rw [toR_one, Matrix.mul_one, Matrix.mul_nonsing_inv _ (isUnit_det_of_ne hB)]

theorem conjB_injective {B : Matrix (Fin n) (Fin n) ℝ} (hB : B.det ≠ 0) :
    Function.Injective (conjB B) := by
  intro M N h
  apply toR_injective
  have e : ∀ M, B⁻¹ * conjB B M * B = toR M := by
    intro M
    unfold conjB
    rw [← Matrix.mul_assoc, ← Matrix.mul_assoc, Matrix.nonsing_inv_mul _ (isUnit_det_of_ne hB),
      Matrix.one_mul, Matrix.mul_assoc, Matrix.nonsing_inv_mul _ (isUnit_det_of_ne hB), Matrix.mul_one]
  rw [← e M, ← e N, h]

theorem eq_conjB {B : Matrix (Fin n) (Fin n) ℝ} (hB : B.det ≠ 0) {Q : Matrix (Fin n) (Fin n) ℝ}
    {M : Matrix (Fin n) (Fin n) ℤ} (h : Q * B = B * toR M) : Q = conjB B M := by
  unfold conjB
  rw [← h, Matrix.mul_assoc, Matrix.mul_nonsing_inv _ (isUnit_det_of_ne hB), Matrix.mul_one]

theorem hexLaue_eq : hexLaue.map NMat.val = hexInt.map (conjB hexB) := by
  have hs := hexS_sq
  simp only [hexLaue, hexInt, List.map_cons, List.map_nil, NMat.val, List.cons.injEq, and_true]
  refine ⟨?_, ?_, ?_, ?_, ?_, ?_, ?_, ?_, ?_, ?_, ?_, ?_⟩ <;>
  · apply eq_conjB hexB_det
    ext i j
    fin_cases i <;> fin_cases j <;>
      simp [hexB, toR, Matrix.mul_apply, Fin.sum_univ_three, hexC_eq] <;> nlinarith

theorem hex2dExt_eq : hex2dExt.map NMat.val = hex2dInt.map (conjB hexB2) := by
  have hs := hexS_sq
  simp only [hex2dExt, hex2dInt, List.map_cons, List.map_nil, NMat.val, List.cons.injEq, and_true]
  refine ⟨?_, ?_, ?_, ?_, ?_, ?_, ?_, ?_, ?_, ?_, ?_, ?_⟩ <;>
  · apply eq_conjB hexB2_det
    ext i j
    fin_cases i <;> fin_cases j <;>
      simp [hexB2, toR, Matrix.mul_apply, Fin.sum_univ_two, hexC_eq] <;> nlinarith

theorem hex2dRot_eq : hex2dRot.map NMat.val = (hex2dInt.take 6).map (conjB hexB2) := by
  rw [hex2dRot, List.map_take, hex2dExt_eq, List.map_take]

theorem hexLaue_group : IsMatGroup (hexLaue.map NMat.val) := by
  rw [hexLaue_eq]
  exact isMatGroup_map hexInt_group _ (conjB_one hexB_det) (conjB_mul hexB_det)

theorem hex2dExt_group : IsMatGroup (hex2dExt.map NMat.val) := by
  rw [hex2dExt_eq]
  exact isMatGroup_map hex2dInt_group _ (conjB_one hexB2_det) (conjB_mul hexB2_det)

theorem hex2dRot_group : IsMatGroup (hex2dRot.map NMat.val) := by
  rw [hex2dRot_eq]
  exact isMatGroup_map hex2dRotInt_group _ (conjB_one hexB2_det) (conjB_mul hexB2_det)

theorem hexLaue_nodup : (hexLaue.map NMat.val).Nodup := by
  rw [hexLaue_eq]
  exact (List.nodup_map_iff (conjB_injective hexB_det)).mpr (by decide +kernel)

theorem hex2dExt_nodup : (hex2dExt.map NMat.val).Nodup := by
  rw [hex2dExt_eq]
  exact (List.nodup_map_iff (conjB_injective hexB2_det)).mpr (by decide +kernel)

theorem hex2dRot_nodup : (hex2dRot.map NMat.val).Nodup := by
  rw [hex2dRot_eq]
  exact (List.nodup_map_iff (conjB_injective hexB2_det)).mpr (by decide +kernel)

theorem intTable_group {G : List (Matrix (Fin n) (Fin n) ℤ)} (hG : IsMatGroup G) :
    IsMatGroup ((G.map NMat.int).map NMat.val) := by
  rw [map_int_val]
  exact isMatGroup_map hG toR toR_one toR_mul

theorem intTable_nodup {G : List (Matrix (Fin n) (Fin n) ℤ)} (hG : G.Nodup) :
    ((G.map NMat.int).map NMat.val).Nodup := by
  rw [map_int_val]
  exact (List.nodup_map_iff toR_injective).mpr hG

theorem cubic_nodup : cubicLaue.Nodup := by decide +kernel
theorem squareExt_nodup : squareExt.Nodup := by decide +kernel
theorem squareRot_nodup : squareRot.Nodup := by decide +kernel

end Verif.Lemmas
