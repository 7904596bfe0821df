import Verif.Lemmas.Lattice

/-!
# C11 - C18: lattices, their equality and their symmetry groups
-/

namespace Verif.Props

open Matrix Verif.Spec Verif.Model Verif.Lemmas

variable {n : ℕ}

/-! ## C11 -/

/-- C11: the constructor succeeds exactly on non-singular square 2-D arrays, and then base and
dimension are those of the argument; it raises `ValueError` in all other cases. -/
theorem C11_lattice_new (a : Arr) :
    (∀ (n : ℕ) (b : Bool) (M : Matrix (Fin n) (Fin n) ℝ), a = .mat n n b M → M.det ≠ 0 →
      Lat.new a = .ok ⟨n, M⟩ ∧ (Lat.mk n M).base = M ∧ (Lat.mk n M).dimension = n) ∧
    ((¬ ∃ (n : ℕ) (b : Bool) (M : Matrix (Fin n) (Fin n) ℝ), a = .mat n n b M ∧ M.det ≠ 0) →
      Lat.new a = .error .valueError) := by
  constructor
  · rintro n b M rfl hM
    exact ⟨lat_new_sq b hM, rfl, rfl⟩
  · intro h
    cases a with
    | invalid => rfl
    | nonmat => rfl
    | mat m n b M =>
      by_cases hmn : n = m
      · subst hmn
        have : M.det = 0 := by
          by_contra h0
          exact h ⟨_, b, M, rfl, h0⟩
        simp [Lat.new, castSq_rfl, this]
      · simp [Lat.new, hmn]

example : (!![2, 1; 0, 3] : Matrix (Fin 2) (Fin 2) ℝ).det ≠ 0 := by simp [Matrix.det_fin_two]
example : ¬ ∃ (n : ℕ) (b : Bool) (M : Matrix (Fin n) (Fin n) ℝ),
    Arr.mat 2 2 false (0 : Matrix (Fin 2) (Fin 2) ℝ) = .mat n n b M ∧ M.det ≠ 0 := by
  rintro ⟨n, b, M, h, h0⟩
  cases h
  simp at h0

/-! ## C12 -/

/-- C12, what `==` decides in exact arithmetic: whether the second lattice is contained in the
first. -/
theorem C12_eq_is_containment (E1 E2 : Matrix (Fin n) (Fin n) ℝ) (h1 : E1.det ≠ 0) :
    Lat.eq .exact ⟨n, E1⟩ ⟨n, E2⟩ = true ↔ latticePoints E2 ⊆ latticePoints E1 := by
  rw [latticePoints_subset_iff h1]
  rw [lat_eq_sq, eqTest_exact]

/-- C12, the true direction, also with the tolerances of the code: equal lattices compare equal. -/
theorem C12_same_lattice_partial (t : Tol) (ht : t = .code ∨ t = .exact)
    (E1 E2 : Matrix (Fin n) (Fin n) ℝ) (h1 : E1.det ≠ 0)
    (h : latticePoints E1 = latticePoints E2) : Lat.eq t ⟨n, E1⟩ ⟨n, E2⟩ = true := by
  have htol : TolOK t := by rcases ht with rfl | rfl; exacts [tolOK_code, tolOK_exact]
  have := (latticePoints_subset_iff h1).mp h.ge
  rw [lat_eq_sq]
  exact eqTest_of_integral htol this

/-- C12, the part of the converse that holds: in exact arithmetic, lattices with unit cells of the same
volume that compare equal are equal.  Missing: lattices with different volumes. -/
theorem C12_same_volume_partial (E1 E2 : Matrix (Fin n) (Fin n) ℝ) (h1 : E1.det ≠ 0)
    (hv : |E1.det| = |E2.det|) :
    Lat.eq .exact ⟨n, E1⟩ ⟨n, E2⟩ = true ↔ latticePoints E1 = latticePoints E2 := by
  rw [C12_eq_is_containment E1 E2 h1]
  refine ⟨fun h => Set.Subset.antisymm ?_ h, fun h => h.ge⟩
  have h2 : E2.det ≠ 0 := by
    intro h0
    rw [h0, abs_zero] at hv
    exact h1 (abs_eq_zero.mp hv)
  obtain ⟨B, hB⟩ := (isIntegral_iff _).mp ((latticePoints_subset_iff h1).mp h)
  have hEB : E2 = E1 * toR B := by
    rw [← hB, ← Matrix.mul_assoc, Matrix.mul_nonsing_inv _ (isUnit_det_of_ne h1), Matrix.one_mul]
  have hdet : |(B.det : ℝ)| = 1 := by
    have := hv
    rw [hEB, Matrix.det_mul, toR_det, abs_mul] at this
    have h0 : |E1.det| ≠ 0 := abs_ne_zero.mpr h1
    have : |E1.det| * 1 = |E1.det| * |(B.det : ℝ)| := by linarith
    exact (mul_left_cancel₀ h0 this).symm
  have hu : Unimodular B := by
    have : |B.det| = 1 := by exact_mod_cast hdet
    rcases abs_eq (by norm_num : (0 : ℤ) ≤ 1) |>.mp this with h | h
    · exact .inl h
    · exact .inr h
  obtain ⟨V, -, hV, -⟩ := unimodular_exists_inv hu
  rw [latticePoints_subset_iff h2, isIntegral_iff]
  refine ⟨V, ?_⟩
  have hE1 : E1 = E2 * toR V := by
    rw [hEB, Matrix.mul_assoc, ← toR_mul, hV, toR_one, Matrix.mul_one]
  calc E2⁻¹ * E1 = E2⁻¹ * (E2 * toR V) := by rw [← hE1]
    _ = toR V := by
      rw [← Matrix.mul_assoc, Matrix.nonsing_inv_mul _ (isUnit_det_of_ne h2), Matrix.one_mul]

theorem inv_two : ((2 : ℝ) • (1 : Matrix (Fin 2) (Fin 2) ℝ))⁻¹ = (1 / 2 : ℝ) • 1 := by
  apply Matrix.inv_eq_left_inv
  rw [Matrix.smul_mul, Matrix.one_mul, smul_smul]
  norm_num

/-- C12 fails: the unit square lattice "equals" its sublattice of index 4, in exact arithmetic and with
the tolerances of the code, although the sets of points differ; and the converse comparison is
false, so `==` is not symmetric. -/
theorem C12_sublattice_fails (t : Tol) (ht : t = .code ∨ t = .exact) :
    Lat.eq t ⟨2, 1⟩ ⟨2, (2 : ℝ) • 1⟩ = true ∧ Lat.eq t ⟨2, (2 : ℝ) • 1⟩ ⟨2, 1⟩ = false ∧
      latticePoints (1 : Matrix (Fin 2) (Fin 2) ℝ) ≠ latticePoints ((2 : ℝ) • 1) := by
  have htol : TolOK t := by rcases ht with rfl | rfl; exacts [tolOK_code, tolOK_exact]
  have hf : roundEven (2⁻¹ : ℝ) = 0 := by
    have e1 : ⌊(2⁻¹ : ℝ)⌋ = 0 := by rw [Int.floor_eq_zero_iff]; constructor <;> norm_num
    have e2 : Int.fract (2⁻¹ : ℝ) = 1 / 2 := by
      rw [Int.fract, e1]; norm_num
    rw [roundEven, if_pos e2, e1]; rfl
  refine ⟨?_, ?_, ?_⟩
  · rw [lat_eq_sq]
    apply eqTest_of_integral htol
    rw [inv_one, Matrix.one_mul]
    intro i j
    fin_cases i <;> fin_cases j
    · exact ⟨2, by simp⟩
    · exact ⟨0, by simp⟩
    · exact ⟨0, by simp⟩
    · exact ⟨2, by simp⟩
  · rw [lat_eq_sq]
    simp only [eqTest, decide_eq_false_iff_not]
    intro h
    have := h 0 0
    rw [inv_two] at this
    simp only [Matrix.mul_one, Matrix.smul_apply, Matrix.one_apply_eq, smul_eq_mul, mul_one, toR,
      Matrix.map_apply, rintMat, one_div, hf] at this
    rcases ht with rfl | rfl <;> norm_num [Tol.code, Tol.exact, abs_of_pos] at this
  · intro h
    have h1 : (fun i => ((Pi.single 0 1 : Fin 2 → ℤ) i : ℝ)) ∈
        latticePoints (1 : Matrix (Fin 2) (Fin 2) ℝ) := ⟨Pi.single 0 1, by rw [Matrix.one_mulVec]⟩
    rw [h] at h1
    obtain ⟨c, hc⟩ := h1
    have := congrFun hc 0
    simp [Matrix.smul_mulVec] at this
    have : (1 : ℤ) = 2 * c 0 := by exact_mod_cast this
    omega

/-- With the tolerances of the code, `==` also identifies lattices that merely have close bases. -/
theorem C12_tolerance_fails :
    Lat.eq .code ⟨1, 1⟩ ⟨1, !![1 + 1 / 10 ^ 6]⟩ = true ∧
      latticePoints (1 : Matrix (Fin 1) (Fin 1) ℝ) ≠ latticePoints !![1 + 1 / 10 ^ 6] := by
  have hr : roundEven (1 + 1 / 10 ^ 6 : ℝ) = 1 := by
    have e1 : ⌊(1 + 1 / 10 ^ 6 : ℝ)⌋ = 1 := by
      rw [Int.floor_eq_iff]; constructor <;> norm_num
    have e2 : Int.fract (1 + 1 / 10 ^ 6 : ℝ) = 1 / 10 ^ 6 := by
      rw [Int.fract, e1]; norm_num
    rw [roundEven, e2, if_neg (by norm_num), round_eq, Int.floor_eq_iff]
    constructor <;> norm_num
  constructor
  · rw [lat_eq_sq]
    simp only [eqTest, decide_eq_true_eq, inv_one, Matrix.one_mul]
    intro i j
    fin_cases i; fin_cases j
    simp only [toR, rintMat, Matrix.map_apply]
    have : (!![1 + 1 / 10 ^ 6] : Matrix (Fin 1) (Fin 1) ℝ) 0 0 = 1 + 1 / 10 ^ 6 := rfl
    simp only [Fin.zero_eta, this, hr]
    norm_num [Tol.code, abs_of_pos]
  · intro h
    have h1 : (fun i => ((Pi.single 0 1 : Fin 1 → ℤ) i : ℝ)) ∈
        latticePoints (1 : Matrix (Fin 1) (Fin 1) ℝ) := ⟨Pi.single 0 1, by rw [Matrix.one_mulVec]⟩
    rw [h] at h1
    obtain ⟨c, hc⟩ := h1
    have := congrFun hc 0
    simp [Matrix.mulVec, dotProduct] at this
    have h2 : (10 ^ 6 : ℝ) = (10 ^ 6 + 1) * c 0 := by
      field_simp at this
      linarith
    have h3 : (10 ^ 6 : ℤ) = (10 ^ 6 + 1) * c 0 := by exact_mod_cast h2
    omega

-- two different bases of one lattice
example : latticePoints (!![1, 1; 0, 1] : Matrix (Fin 2) (Fin 2) ℝ) = latticePoints 1 := by
  ext x
  constructor
  · rintro ⟨c, rfl⟩
    exact ⟨![c 0 + c 1, c 1], by
      rw [Matrix.one_mulVec]; ext i; fin_cases i <;> simp [Matrix.mulVec, dotProduct]⟩
  · rintro ⟨c, rfl⟩
    exact ⟨![c 0 - c 1, c 1], by
      rw [Matrix.one_mulVec]; ext i; fin_cases i <;> simp [Matrix.mulVec, dotProduct]⟩

/-! ## C13 -/

/-- C13: in exact arithmetic `inpointgroup` never raises and decides membership in the point group, for
every array passed to it. -/
theorem C13_inpointgroup (E : Matrix (Fin n) (Fin n) ℝ) (hE : E.det ≠ 0) (a : Arr) :
    ∃ b, Lat.inPointGroup .exact ⟨n, E⟩ a = .ok b ∧
      (b = true ↔ ∃ (i : Bool) (Q : Matrix (Fin n) (Fin n) ℝ), a = .mat n n i Q ∧ InPointGroup E Q) := by
  cases a with
  | invalid => exact ⟨false, rfl, by simp⟩
  | nonmat => exact ⟨false, rfl, by simp⟩
  | mat m k i Q =>
    by_cases hk : k = m
    · subst hk
      by_cases hn : k = n
      · subst hn
        refine ⟨_, inPointGroup_sq _ hE i Q, ?_⟩
        rw [Bool.and_eq_true, inO3_exact, eqTest_exact, ← inPointGroup_iff hE]
        constructor
        · intro h; exact ⟨i, Q, rfl, h⟩
        · rintro ⟨i', Q', h, h'⟩
          cases h
          exact h'
      · refine ⟨false, ?_, ?_⟩
        · simp only [Lat.inPointGroup, dif_pos]
          split
          · simp [hn]
          · rfl
        · simp only [Bool.false_eq_true, false_iff]
          rintro ⟨i', Q', h, -⟩
          cases h
          exact hn rfl
    · refine ⟨false, by simp [Lat.inPointGroup, hk], ?_⟩
      simp only [Bool.false_eq_true, false_iff]
      rintro ⟨i', Q', h, -⟩
      cases h
      exact hk rfl

/-- C13, second half: with the tolerances of the code every member of the point group is accepted. -/
theorem C13_tolerant_complete (E : Matrix (Fin n) (Fin n) ℝ) (hE : E.det ≠ 0) (i : Bool)
    (Q : Matrix (Fin n) (Fin n) ℝ) (hQ : InPointGroup E Q) :
    Lat.inPointGroup .code ⟨n, E⟩ (.mat n n i Q) = .ok true := by
  obtain ⟨h1, h2⟩ := (inPointGroup_iff hE).mp hQ
  rw [inPointGroup_sq _ hE, inO3_of_ortho tolOK_code i h1, eqTest_of_integral tolOK_code h2]
  rfl

-- a quarter turn is in the point group of the square lattice
example : InPointGroup (1 : Matrix (Fin 2) (Fin 2) ℝ) !![0, -1; 1, 0] := by
  rw [inPointGroup_iff (by simp)]
  refine ⟨?_, ?_⟩
  · ext i j; fin_cases i <;> fin_cases j <;> simp [Matrix.mul_apply]
  · rw [inv_one, Matrix.one_mul, Matrix.mul_one]
    intro i j
    fin_cases i <;> fin_cases j
    · exact ⟨0, by simp⟩
    · exact ⟨-1, by simp⟩
    · exact ⟨1, by simp⟩
    · exact ⟨0, by simp⟩

/-! ## C14 -/

theorem conj_assoc {E M : Matrix (Fin n) (Fin n) ℝ} (hE : E.det ≠ 0) :
    E⁻¹ * (E * M * E⁻¹ * E) = M := by
  rw [Matrix.mul_assoc (E * M), Matrix.nonsing_inv_mul _ (isUnit_det_of_ne hE), Matrix.mul_one,
    ← Matrix.mul_assoc, Matrix.nonsing_inv_mul _ (isUnit_det_of_ne hE), Matrix.one_mul]

/-- C14: in exact arithmetic `inlatticegroup(M)` is true iff `M` is an integer matrix with `E M E⁻¹`
orthogonal, iff `E M E⁻¹` is in the point group, iff `inpointgroup(E M E⁻¹)`. -/
theorem C14_inlatticegroup (E M : Matrix (Fin n) (Fin n) ℝ) (hE : E.det ≠ 0) :
    ∃ b, Lat.inLatticeGroup .exact ⟨n, E⟩ M = .ok b ∧
      (b = true ↔ IsIntegral M ∧ (E * M * E⁻¹) * (E * M * E⁻¹)ᵀ = 1) ∧
      (b = true ↔ InPointGroup E (E * M * E⁻¹)) ∧
      Lat.inPointGroup .exact ⟨n, E⟩ (.mat n n false (E * M * E⁻¹)) = .ok b := by
  have key : InPointGroup E (E * M * E⁻¹) ↔
      IsIntegral M ∧ (E * M * E⁻¹) * (E * M * E⁻¹)ᵀ = 1 := by
    rw [inPointGroup_iff hE, conj_assoc hE]
    exact and_comm
  have h0 : ∃ b, Lat.inLatticeGroup .exact ⟨n, E⟩ M = .ok b ∧
      (b = true ↔ IsIntegral M ∧ (E * M * E⁻¹) * (E * M * E⁻¹)ᵀ = 1) := by
    unfold Lat.inLatticeGroup
    by_cases h : allclose Tol.exact M (toR (rintMat M))
    · rw [if_pos h]
      refine ⟨_, by simp only [dif_pos]; rfl, ?_⟩
      rw [castSq_rfl, inO3_exact]
      rw [allclose_exact] at h
      have hi : IsIntegral M := (isIntegral_iff_rint M).mpr h.symm
      simp [hi, Lat.base]
    · rw [if_neg h]
      refine ⟨false, rfl, ?_⟩
      rw [allclose_exact] at h
      simp only [Bool.false_eq_true, false_iff, not_and]
      intro hi
      exact absurd ((isIntegral_iff_rint M).mp hi).symm h
  obtain ⟨b, hb, hb'⟩ := h0
  refine ⟨b, hb, hb', hb'.trans key.symm, ?_⟩
  obtain ⟨c, hc, hc'⟩ := C13_inpointgroup E hE (.mat n n false (E * M * E⁻¹))
  have : (c = true ↔ b = true) := by
    rw [hc', hb', ← key]
    constructor
    · rintro ⟨i, Q, h, h'⟩
      cases h
      exact h'
    · intro h; exact ⟨false, _, rfl, h⟩
  rw [hc, show c = b from Bool.eq_iff_iff.mpr this]

/-- C14, with the tolerances of the code: every member of the lattice group is accepted. -/
theorem C14_tolerant_complete (E M : Matrix (Fin n) (Fin n) ℝ)
    (hM : IsIntegral M) (hQ : (E * M * E⁻¹) * (E * M * E⁻¹)ᵀ = 1) :
    Lat.inLatticeGroup .code ⟨n, E⟩ M = .ok true := by
  unfold Lat.inLatticeGroup
  rw [if_pos (by rw [(isIntegral_iff_rint M).mp hM]; exact allclose_self tolOK_code M)]
  simp only [dif_pos, castSq_rfl, Lat.base]
  rw [inO3_of_ortho tolOK_code _ hQ]

/-- C14, arguments of the wrong shape: an integer array raises `ValueError` instead of answering. -/
theorem C14_wrong_shape (t : Tol) (ht : t = .code ∨ t = .exact) (E : Matrix (Fin n) (Fin n) ℝ)
    {m k : ℕ} (M : Matrix (Fin m) (Fin k) ℝ) (hM : IsIntegral M) (hs : m ≠ n ∨ k ≠ n) :
    Lat.inLatticeGroup t ⟨n, E⟩ M = .error .valueError := by
  have htol : TolOK t := by rcases ht with rfl | rfl; exacts [tolOK_code, tolOK_exact]
  unfold Lat.inLatticeGroup
  rw [if_pos (by rw [(isIntegral_iff_rint M).mp hM]; exact allclose_self htol M)]
  rcases hs with h | h
  · simp [h]
  · by_cases h' : m = n <;> simp [h, h']

example : IsIntegral (!![0, -1; 1, 0] : Matrix (Fin 2) (Fin 2) ℝ) := by
  intro i j
  fin_cases i <;> fin_cases j
  · exact ⟨0, by simp⟩
  · exact ⟨-1, by simp⟩
  · exact ⟨1, by simp⟩
  · exact ⟨0, by simp⟩

/-! ## C15, C16, C17 -/

/-- The candidates `Q` of a table are well separated for the basis `E`: each is a symmetry of the
lattice, or some entry of `E⁻¹ Q E` is farther than the tolerance from every integer. -/
def Separated (E : Matrix (Fin n) (Fin n) ℝ) (G : List (Matrix (Fin n) (Fin n) ℝ)) : Prop :=
  ∀ Q ∈ G, InPointGroup E Q ∨
    ∃ i j, ∀ z : ℤ, 1 / 10 ^ 8 + 1 / 10 ^ 5 * |(z : ℝ)| < |(E⁻¹ * (Q * E)) i j - z|

/-- The comparisons are exact, or they are those of the code and the candidates well separated. -/
def Reliable (t : Tol) (E : Matrix (Fin n) (Fin n) ℝ) (G : List (Matrix (Fin n) (Fin n) ℝ)) : Prop :=
  t = .exact ∨ t = .code ∧ Separated E G

theorem passes_reliable {t : Tol} {E : Matrix (Fin n) (Fin n) ℝ} (hE : E.det ≠ 0) {G : List (NMat n)}
    (h : Reliable t E (G.map NMat.val)) : ∀ Q ∈ G, passes t E Q = true ↔ InPointGroup E Q.val := by
  intro Q hQ
  rcases h with rfl | ⟨rfl, hs⟩
  · exact passes_exact hE Q
  · refine ⟨?_, passes_of_sym tolOK_code hE Q⟩
    intro hp
    rcases hs Q.val (List.mem_map.mpr ⟨Q, hQ, rfl⟩) with h | ⟨i, j, h⟩
    · exact h
    · exfalso
      have hq : eqTest .code E (Q.val * E) = true := by
        cases Q with
        | int M => simp only [passes, Bool.and_eq_true] at hp; exact hp.2
        | float M => simp only [passes, Bool.and_eq_true] at hp; exact hp.2
      simp only [eqTest, decide_eq_true_eq] at hq
      have h1 := hq i j
      have h2 := h (rintMat (E⁻¹ * (Q.val * E)) i j)
      simp only [toR, Matrix.map_apply, Tol.code] at h1
      linarith

/-- All candidates of dimension 3. -/
noncomputable def candidates3 : List (Matrix (Fin 3) (Fin 3) ℝ) :=
  cubicLaue.map toR ++ hexLaue.map NMat.val

/-- All candidates of dimension 2. -/
noncomputable def candidates2 : List (Matrix (Fin 2) (Fin 2) ℝ) :=
  squareExt.map toR ++ hex2dExt.map NMat.val

theorem Reliable.mono {t : Tol} {E : Matrix (Fin n) (Fin n) ℝ}
    {G H : List (Matrix (Fin n) (Fin n) ℝ)} (h : Reliable t E H) (hs : ∀ Q ∈ G, Q ∈ H) :
    Reliable t E G := by
  rcases h with h | ⟨h, h'⟩
  · exact .inl h
  · exact .inr ⟨h, fun Q hQ => h' Q (hs Q hQ)⟩

theorem cubic_det : ∀ Q ∈ cubicLaue, Q.det = 1 := by unfold cubicLaue; decide +kernel
theorem squareRot_det : ∀ Q ∈ squareRot, Q.det = 1 := by unfold squareRot squareExt; decide +kernel
theorem hexInt_det : ∀ Q ∈ hexInt, Q.det = 1 := by unfold hexInt; decide +kernel
theorem hex2dRotInt_det : ∀ Q ∈ hex2dInt.take 6, Q.det = 1 := by unfold hex2dInt; decide +kernel

theorem conjB_det {B : Matrix (Fin n) (Fin n) ℝ} (hB : B.det ≠ 0) (M : Matrix (Fin n) (Fin n) ℤ) :
    (conjB B M).det = M.det := by
  rw [conjB, Matrix.det_mul, Matrix.det_mul, toR_det, Matrix.det_nonsing_inv]
  calc B.det * (M.det : ℝ) * Ring.inverse B.det = (B.det * Ring.inverse B.det) * M.det := by ring
    _ = M.det := by rw [Ring.mul_inverse_cancel _ (isUnit_det_of_ne hB), one_mul]

/-! ### C15 -/

theorem castList_rfl (l : List (Matrix (Fin n) (Fin n) ℝ)) : castList rfl l = l := by
  unfold castList
  rw [show (castSq rfl rfl : Matrix (Fin n) (Fin n) ℝ → _) = id from funext castSq_rfl, List.map_id]

theorem laueGroup_three (t : Tol) (E : Matrix (Fin 3) (Fin 3) ℝ) :
    Lat.laueGroup t ⟨3, E⟩ = Lat.select t ⟨3, E⟩ (cubicLaue.map .int) hexLaue 4 := by
  simp only [Lat.laueGroup, dif_pos]
  cases Lat.select t ⟨3, E⟩ (cubicLaue.map .int) hexLaue 4 <;> simp [castList_rfl]

theorem laueGroup_two (t : Tol) (E : Matrix (Fin 2) (Fin 2) ℝ) :
    Lat.laueGroup t ⟨2, E⟩ = Lat.select t ⟨2, E⟩ (squareRot.map .int) hex2dRot 2 := by
  simp only [Lat.laueGroup, dif_pos, dif_neg (show ¬ 3 = 2 by decide)]
  cases Lat.select t ⟨2, E⟩ (squareRot.map .int) hex2dRot 2 <;> simp [castList_rfl]

theorem pointGroup_two (t : Tol) (E : Matrix (Fin 2) (Fin 2) ℝ) :
    Lat.pointGroup t ⟨2, E⟩ = Lat.select t ⟨2, E⟩ (squareExt.map .int) hex2dExt 4 := by
  simp only [Lat.pointGroup, if_neg (show ¬ 3 = 2 by decide), dif_pos]
  cases Lat.select t ⟨2, E⟩ (squareExt.map .int) hex2dExt 4 <;> simp [castList_rfl]

theorem mem_filter_det {G : List (NMat n)} {P : NMat n → Bool} {d : ℝ}
    (h : ∀ Q ∈ G.map NMat.val, Q.det = d) : ∀ Q ∈ (G.filter P).map NMat.val, Q.det = d := by
  intro Q hQ
  obtain ⟨R, hR, rfl⟩ := List.mem_map.mp hQ
  exact h _ (List.mem_map.mpr ⟨R, (List.mem_filter.mp hR).1, rfl⟩)

theorem int_table_det {G : List (Matrix (Fin n) (Fin n) ℤ)} (h : ∀ Q ∈ G, Q.det = 1) :
    ∀ Q ∈ (G.map NMat.int).map NMat.val, Q.det = 1 := by
  intro Q hQ
  rw [map_int_val] at hQ
  obtain ⟨R, hR, rfl⟩ := List.mem_map.mp hQ
  rw [toR_det, h R hR, Int.cast_one]

theorem hexLaue_det : ∀ Q ∈ hexLaue.map NMat.val, Q.det = 1 := by
  rw [hexLaue_eq]
  intro Q hQ
  obtain ⟨R, hR, rfl⟩ := List.mem_map.mp hQ
  rw [conjB_det hexB_det, hexInt_det R hR, Int.cast_one]

theorem hex2dRot_det : ∀ Q ∈ hex2dRot.map NMat.val, Q.det = 1 := by
  rw [hex2dRot_eq]
  intro Q hQ
  obtain ⟨R, hR, rfl⟩ := List.mem_map.mp hQ
  rw [conjB_det hexB2_det, hex2dRotInt_det R hR, Int.cast_one]

/-- C15 in three dimensions. -/
theorem C15_laue_group_3d (t : Tol) (E : Matrix (Fin 3) (Fin 3) ℝ) (hE : E.det ≠ 0)
    (hr : Reliable t E candidates3) :
    ∃ g, Lat.laueGroup t ⟨3, E⟩ = .ok g ∧ IsSymmetryGroup E g ∧ ∀ Q ∈ g, Q.det = 1 := by
  rw [laueGroup_three]
  obtain ⟨T, hT, h⟩ := select_ok t hE (cubicLaue.map .int) hexLaue 4
  refine ⟨_, h, ?_⟩
  rcases hT with rfl | rfl
  · refine ⟨filter_symmetryGroup _ _ (intTable_group cubic_group) (intTable_nodup cubic_nodup)
      (passes_reliable hE (hr.mono ?_)), mem_filter_det (int_table_det cubic_det)⟩
    intro Q hQ
    rw [map_int_val] at hQ
    exact List.mem_append_left _ hQ
  · exact ⟨filter_symmetryGroup _ _ hexLaue_group hexLaue_nodup
      (passes_reliable hE (hr.mono fun Q hQ => List.mem_append_right _ hQ)),
      mem_filter_det hexLaue_det⟩

theorem squareRot_sub : ∀ Q ∈ squareRot, Q ∈ squareExt := fun _ h => List.mem_of_mem_take h
theorem hex2dRot_sub : ∀ Q ∈ hex2dRot, Q ∈ hex2dExt := fun _ h => List.mem_of_mem_take h

/-- C15 in two dimensions. -/
theorem C15_laue_group_2d (t : Tol) (E : Matrix (Fin 2) (Fin 2) ℝ) (hE : E.det ≠ 0)
    (hr : Reliable t E candidates2) :
    ∃ g, Lat.laueGroup t ⟨2, E⟩ = .ok g ∧ IsSymmetryGroup E g ∧ ∀ Q ∈ g, Q.det = 1 := by
  rw [laueGroup_two]
  obtain ⟨T, hT, h⟩ := select_ok t hE (squareRot.map .int) hex2dRot 2
  refine ⟨_, h, ?_⟩
  rcases hT with rfl | rfl
  · refine ⟨filter_symmetryGroup _ _ (intTable_group squareRot_group) (intTable_nodup squareRot_nodup)
      (passes_reliable hE (hr.mono ?_)), mem_filter_det (int_table_det squareRot_det)⟩
    intro Q hQ
    rw [map_int_val] at hQ
    obtain ⟨R, hR, rfl⟩ := List.mem_map.mp hQ
    exact List.mem_append_left _ (List.mem_map.mpr ⟨R, squareRot_sub R hR, rfl⟩)
  · refine ⟨filter_symmetryGroup _ _ hex2dRot_group hex2dRot_nodup
      (passes_reliable hE (hr.mono ?_)), mem_filter_det hex2dRot_det⟩
    intro Q hQ
    obtain ⟨R, hR, rfl⟩ := List.mem_map.mp hQ
    exact List.mem_append_right _ (List.mem_map.mpr ⟨R, hex2dRot_sub R hR, rfl⟩)

/-- C15, other dimensions: `AttributeError` from all four group methods. -/
theorem C15_other_dimensions (t : Tol) (L : Lat) (h : L.N ≠ 2 ∧ L.N ≠ 3) :
    L.laueGroup t = .error .attributeError ∧ L.pointGroup t = .error .attributeError ∧
      L.specialLatticeGroup t = .error .attributeError ∧ L.latticeGroup t = .error .attributeError := by
  have h2 : ¬ 2 = L.N := fun e => h.1 e.symm
  have h3 : ¬ 3 = L.N := fun e => h.2 e.symm
  refine ⟨?_, ?_, ?_, ?_⟩ <;>
    simp [Lat.laueGroup, Lat.pointGroup, Lat.specialLatticeGroup, Lat.latticeGroup, h2, h3]

example : Reliable .exact (1 : Matrix (Fin 3) (Fin 3) ℝ) candidates3 := .inl rfl

end Verif.Props
