import Verif.Lemmas.Bravais

/-!
# Properties of `structrans/crystallography/bravais_lattice.py` (C21 - C24, and C18 for this class)
-/

namespace Verif.Props

open Matrix Verif.Model Verif.Spec Verif.Lemmas

/-! ## C21 -/

/-- C21, first half: whatever is accepted has dimension 2 or 3, a valid type, the right number of
parameters, all of them positive, and, if the base is finite, a non-degenerate cell. -/
theorem C21_accepted (py : Py) (id : ℤ) (arg : PArg) (dim : ℤ) (L : BLat)
    (h : BLat.new py id arg dim = .ok L) :
    (arg = .num L.latParams ∨ arg = .list L.latParams) ∧ (∀ v ∈ L.latParams.vals, 0 < v) ∧ L.id = id ∧
      ((dim = 3 ∧ L.N = 3 ∧ 1 ≤ id ∧ id ≤ 14 ∧ L.latParams.vals.length = paramCount3 id) ∨
        (dim = 2 ∧ L.N = 2 ∧ 1 ≤ id ∧ id ≤ 5 ∧ L.latParams.vals.length = paramCount2 id)) ∧
      ∀ E, L.E = some E → E.det ≠ 0 := by
  unfold BLat.new at h
  split at h
  · cases h
  rename_i x hx
  obtain ⟨h1, h2⟩ := checkParam_ok hx
  split_ifs at h with d3 hid hlen d2 hid hlen
  · simp only [not_not] at hid hlen
    dsimp only at h
    split at h
    · cases h
    rename_i hb
    cases h
    refine ⟨h1, h2, rfl, .inl ⟨d3, rfl, hid.1, by omega, ?_⟩, ?_⟩
    · rw [← paramLen3_eq hid.1 hid.2]; exact hlen
    · intro E hE
      simp only at hE
      rw [hE, initBase_some] at hb
      intro h0
      rw [if_pos h0] at hb
      cases hb
  · simp only [not_not] at hid hlen
    dsimp only at h
    split at h
    · cases h
    rename_i hb
    cases h
    refine ⟨h1, h2, rfl, .inr ⟨d2, rfl, hid.1, by omega, ?_⟩, ?_⟩
    · rw [← paramLen2_eq hid.1 hid.2]; exact hlen
    · intro E hE
      simp only [Option.some.injEq] at hE
      rw [initBase_some] at hb
      intro h0
      rw [hE, if_pos h0] at hb
      cases hb

/-- C21, second half: any other identifier, number of parameters or a non-positive parameter raises
`ValueError`. -/
theorem C21_rejected (py : Py) (id : ℤ) (x : Nums) (dim : ℤ) (hdim : dim = 2 ∨ dim = 3)
    (h : (∃ v ∈ x.vals, v ≤ 0) ∨
      (dim = 3 ∧ (¬ (1 ≤ id ∧ id ≤ 14) ∨ x.vals.length ≠ paramCount3 id)) ∨
      (dim = 2 ∧ (¬ (1 ≤ id ∧ id ≤ 5) ∨ x.vals.length ≠ paramCount2 id))) :
    BLat.new py id (.list x) dim = .error .valueError ∧
      BLat.new py id (.num x) dim = .error .valueError := by
  by_cases hv : ∃ v ∈ x.vals, v ≤ 0
  · simp only [BLat.new, checkParam, if_pos hv, and_self]
  · replace h := h.resolve_left hv
    have hpos : ∀ v ∈ x.vals, 0 < v := by push Not at hv; exact hv
    rcases h with ⟨rfl, h⟩ | ⟨rfl, h⟩
    · by_cases hid : 1 ≤ id ∧ id < 15
      · have hl : x.vals.length ≠ paramLen3.getD (id - 1).toNat 0 := by
          rw [paramLen3_eq hid.1 hid.2]
          exact h.resolve_left (fun hc => hc ⟨hid.1, by omega⟩)
        simp only [BLat.new, checkParam_list hpos, checkParam_num hpos, if_true, not_true,
          hid, if_false, if_pos hl, and_self]
      · simp only [BLat.new, checkParam_list hpos, checkParam_num hpos, if_true, if_pos hid, and_self]
    · by_cases hid : 1 ≤ id ∧ id < 6
      · have hl : x.vals.length ≠ paramLen2.getD (id - 1).toNat 0 := by
          rw [paramLen2_eq hid.1 hid.2]
          exact h.resolve_left (fun hc => hc ⟨hid.1, by omega⟩)
        simp only [BLat.new, checkParam_list hpos, checkParam_num hpos, if_true, not_true,
          hid, if_false, if_pos hl, and_self, show ¬ ((2 : ℤ) = 3) by decide]
      · simp only [BLat.new, checkParam_list hpos, checkParam_num hpos, if_true, if_pos hid, and_self,
          show ¬ ((2 : ℤ) = 3) by decide, if_false]

/-- C21: parameters that are neither a number nor a flat list raise `ValueError`. -/
theorem C21_rejected_shape (py : Py) (id dim : ℤ) : BLat.new py id .other dim = .error .valueError := rfl

/-- C21: a dimension other than 2 and 3 does raise, but not a `ValueError`. -/
theorem C21_dimension (py : Py) (id : ℤ) (x : Nums) (hx : ∀ v ∈ x.vals, 0 < v) (dim : ℤ) (h2 : dim ≠ 2)
    (h3 : dim ≠ 3) : BLat.new py id (.list x) dim = .error .unboundLocalError := by
  simp only [BLat.new, checkParam_list hx, if_neg h2, if_neg h3]

example : ∃ x : Nums, (∀ v ∈ x.vals, 0 < v) ∧ x.vals.length = paramCount3 7 :=
  ⟨.float [2, 3], by simp [Nums.vals], rfl⟩

/-- C21 fails for non-degeneracy: a rhombohedral cell with an angle above 120 degrees does not exist, but
the constructor accepts it and holds a base of non-finite numbers. -/
theorem C21_nan_fails (py : Py) (α : ℝ) (h1 : 120 < α) (h2 : α < 180) :
    ¬ Feasible3 (angles3 5 (Nums.float [1, α]).get) ∧
      ∃ C, BLat.new py 5 (.list (.float [1, α])) 3 = .ok ⟨3, none, 5, .float [1, α], C⟩ := by
  have hc : Real.cos (radians α) < -1 / 2 := by
    have e : Real.cos (2 * Real.pi / 3) = -1 / 2 := by
      rw [show 2 * Real.pi / 3 = Real.pi - Real.pi / 3 by ring, Real.cos_pi_sub, Real.cos_pi_div_three]
      norm_num
    rw [← e]
    have hpi := Real.pi_pos
    apply Real.cos_lt_cos_of_nonneg_of_le_pi
    · positivity
    · unfold radians
      rw [div_le_iff₀ (by norm_num)]
      nlinarith
    · unfold radians
      rw [div_lt_div_iff₀ (by norm_num) (by norm_num)]
      nlinarith
  constructor
  · rintro ⟨-, hw⟩
    have hw' : 0 < (1 - Real.cos (radians α)) ^ 2 * (1 + 2 * Real.cos (radians α)) := by
      have e : (1 - cosDeg α) ^ 2 * (1 + 2 * cosDeg α) =
          1 + 2 * cosDeg α * cosDeg α * cosDeg α - cosDeg α ^ 2 - cosDeg α ^ 2
            - cosDeg α ^ 2 := by ring
      change 0 < (1 - cosDeg α) ^ 2 * (1 + 2 * cosDeg α)
      rw [e]
      simpa [angles3, Nums.get, Nums.vals] using hw
    nlinarith [sq_nonneg (1 - Real.cos (radians α))]
  · have hpos : ∀ v ∈ (Nums.float [1, α]).vals, 0 < v := by
      simp [Nums.vals]; linarith
    have hE : primBase3 py (Nums.float [1, α]).isInt 5 (Nums.float [1, α]).get = none := by
      simp only [primBase3]
      rw [if_neg (by decide), if_neg (by decide), if_neg (by decide), if_neg (by decide), if_pos trivial,
        if_pos]
      right
      have : (Nums.float [1, α]).get 1 = α := rfl
      rw [this]
      linarith
    refine ⟨(centring3 5)⁻¹, ?_⟩
    simp only [BLat.new, checkParam_list hpos, hE, initBase_none]
    rw [if_pos trivial, if_neg (by decide), if_neg (by simp [Nums.vals, paramLen3])]

/-! ## C22 -/

/-- C22 in three dimensions: for every type, all positive parameters and feasible angles the constructor
succeeds, the conventional cell has the requested lengths and angles and the base is right-handed.
`py = .py3 ∨ x.isInt = false` excludes integer parameters under Python 2 (`C22_python2_fails`). -/
theorem C22_cell_3d_partial (py : Py) (id : ℤ) (h1 : 1 ≤ id) (h2 : id ≤ 14) (x : Nums)
    (he : py = .py3 ∨ x.isInt = false) (hpos : ∀ v ∈ x.vals, 0 < v)
    (hlen : x.vals.length = paramCount3 id) (hf : Feasible3 (angles3 id x.get)) :
    ∃ E C B, BLat.new py id (.list x) 3 = .ok ⟨3, some E, id, x, C⟩ ∧
      BLat.conventionalBase ⟨3, some E, id, x, C⟩ = some B ∧
      Bᵀ * B = metric3 (lengths3 id x.get) (angles3 id x.get) ∧ 0 < E.det := by
  have h2' : id < 15 := by omega
  obtain ⟨E, hE, hm, hd⟩ := good3_all he h1 h2' (p := x.get)
    (fun k hk => get_pos hpos (by rw [hlen]; exact hk)) hf
  refine ⟨E, (centring3 id)⁻¹, E * (centring3 id)⁻¹, ?_, rfl, ?_, hd⟩
  · simp only [BLat.new, checkParam_list hpos, hE, initBase_some, if_neg hd.ne']
    rw [if_pos trivial, if_neg (by simp [h1, h2']), if_neg (by rw [paramLen3_eq h1 h2', hlen]; simp)]
  · rw [centring3_inv, hm]

/-- C22 in two dimensions. -/
theorem C22_cell_2d (py : Py) (id : ℤ) (h1 : 1 ≤ id) (h2 : id ≤ 5) (x : Nums)
    (hpos : ∀ v ∈ x.vals, 0 < v) (hlen : x.vals.length = paramCount2 id)
    (hf : 0 < angle2 id x.get ∧ angle2 id x.get < 180) :
    ∃ E C B, BLat.new py id (.list x) 2 = .ok ⟨2, some E, id, x, C⟩ ∧
      BLat.conventionalBase ⟨2, some E, id, x, C⟩ = some B ∧
      Bᵀ * B = metric2 (lengths2 id x.get) (angle2 id x.get) ∧ 0 < E.det := by
  have h2' : id < 6 := by omega
  obtain ⟨hm, hd⟩ := good2_all h1 h2' (p := x.get)
    (fun k hk => get_pos hpos (by rw [hlen]; exact hk)) hf
  refine ⟨primBase2 id x.get, (centring2 id)⁻¹, primBase2 id x.get * (centring2 id)⁻¹, ?_, rfl, ?_, hd⟩
  · simp only [BLat.new, checkParam_list hpos, initBase_some, if_neg hd.ne']
    rw [if_neg (by decide), if_pos trivial, if_neg (by simp [h1, h2']),
      if_neg (by rw [paramLen2_eq h1 h2', hlen]; simp)]
  · rw [centring2_inv, hm]

/-- The hypotheses are satisfied for every type without angles, e.g. body-centred tetragonal. -/
example : Feasible3 (angles3 7 (Nums.float [2, 3]).get) := by
  have : angles3 7 (Nums.float [2, 3]).get = ![90, 90, 90] := by simp [angles3]
  rw [this]
  refine ⟨fun i => by fin_cases i <;> simp <;> norm_num, ?_⟩
  simp [cosDeg_90]

/-- and for rhombohedral cells with an angle of 60 degrees. -/
example : Feasible3 (angles3 5 (Nums.float [2, 60]).get) := by
  have : angles3 5 (Nums.float [2, 60]).get = ![60, 60, 60] := by simp [angles3, Nums.get, Nums.vals]
  rw [this]
  refine ⟨fun i => by fin_cases i <;> simp <;> norm_num, ?_⟩
  simp [cosDeg_60]
  norm_num

/-- C22 fails under Python 2 for integer parameters: `BravaisLattice(10, [3, 3, 3])` has a conventional
cell with edges 2 instead of 3. -/
theorem C22_python2_fails :
    ∃ E C B, BLat.new .py2 10 (.list (.int [3, 3, 3])) 3 = .ok ⟨3, some E, 10, .int [3, 3, 3], C⟩ ∧
      BLat.conventionalBase ⟨3, some E, 10, .int [3, 3, 3], C⟩ = some B ∧
      lengths3 10 (Nums.int [3, 3, 3]).get = ![3, 3, 3] ∧ (Bᵀ * B) 0 0 = 2 * 2 := by
  have hfl : npdiv .py2 (Nums.int [3, 3, 3]).isInt 3 2 = 1 := by
    unfold npdiv
    rw [if_pos ⟨rfl, rfl⟩]
    have : ⌊(3 / 2 : ℝ)⌋ = 1 := by rw [Int.floor_eq_iff]; norm_num
    rw [this]; norm_num
  have hg0 : (Nums.int [3, 3, 3]).get 0 = 3 := by simp [Nums.get, Nums.vals]
  have hg1 : (Nums.int [3, 3, 3]).get 1 = 3 := by simp [Nums.get, Nums.vals]
  have hg2 : (Nums.int [3, 3, 3]).get 2 = 3 := by simp [Nums.get, Nums.vals]
  have hE : primBase3 .py2 (Nums.int [3, 3, 3]).isInt 10 (Nums.int [3, 3, 3]).get =
      some !![1, 1, 0; 0, 1, 1; 1, 0, 1]ᵀ := by
    simp only [primBase3, hg0, hg1, hg2, hfl]
    rfl
  have hpos : ∀ v ∈ (Nums.int [3, 3, 3]).vals, 0 < v := by simp [Nums.vals]
  have hd : (!![1, 1, 0; 0, 1, 1; 1, 0, 1]ᵀ : Matrix (Fin 3) (Fin 3) ℝ).det ≠ 0 := by
    simp [Matrix.det_fin_three]
  refine ⟨!![1, 1, 0; 0, 1, 1; 1, 0, 1]ᵀ, (centring3 10)⁻¹,
    !![1, 1, 0; 0, 1, 1; 1, 0, 1]ᵀ * (centring3 10)⁻¹, ?_, rfl, ?_, ?_⟩
  · simp only [BLat.new, checkParam_list hpos, hE, initBase_some, if_neg hd]
    rw [if_pos trivial, if_neg (by decide), if_neg (by simp [Nums.vals, paramLen3])]
  · simp [lengths3, hg0, hg1, hg2]
  · rw [centring3_inv]
    simp [toR, cellMat3, Matrix.mul_apply, Fin.sum_univ_three]
    norm_num

/-! ## C23 -/

theorem cellMat3_det {id : ℤ} (h1 : 1 ≤ id) (h2 : id ≤ 14) : (cellMat3 id).det = pointsPerCell3 id := by
  interval_cases id <;> decide +kernel

theorem cellMat2_det {id : ℤ} (h1 : 1 ≤ id) (h2 : id ≤ 5) : (cellMat2 id).det = pointsPerCell2 id := by
  interval_cases id <;> decide +kernel

/-- C23: `conventional_trans()` is an integer matrix whose determinant is the number of lattice points per
conventional cell, and the conventional base is the base times it. -/
theorem C23_conventional_trans (py : Py) (id : ℤ) (arg : PArg) (dim : ℤ) (L : BLat)
    (h : BLat.new py id arg dim = .ok L) :
    (∃ M : Matrix (Fin L.N) (Fin L.N) ℤ, L.conventionalTrans = toR M ∧
      M.det = if dim = 3 then pointsPerCell3 id else pointsPerCell2 id) ∧
    ∀ E, L.E = some E → L.conventionalBase = some (E * L.conventionalTrans) := by
  refine ⟨?_, fun E hE => by simp [BLat.conventionalBase, hE]⟩
  have hacc := (C21_accepted py id arg dim L h).2.2.2.1
  unfold BLat.new at h
  split at h
  · cases h
  rename_i x hx
  split_ifs at h with d3 hid hlen d2 hid hlen
  · dsimp only at h
    split at h
    · cases h
    cases h
    rcases hacc with hacc | hacc
    · refine ⟨cellMat3 id, centring3_inv id, ?_⟩
      rw [if_pos d3]
      exact cellMat3_det hacc.2.2.1 hacc.2.2.2.1
    · omega
  · dsimp only at h
    split at h
    · cases h
    cases h
    rcases hacc with hacc | hacc
    · omega
    · refine ⟨cellMat2 id, centring2_inv id, ?_⟩
      rw [if_neg d3]
      exact cellMat2_det hacc.2.2.1 hacc.2.2.2.1

/-! ## C24 -/

theorem trans_det (py : Py) (id : ℤ) (arg : PArg) (dim : ℤ) (L : BLat)
    (h : BLat.new py id arg dim = .ok L) : L.C.det ≠ 0 := by
  obtain ⟨⟨M, hM, hd⟩, -⟩ := C23_conventional_trans py id arg dim L h
  have e : L.C = toR M := hM
  have hp : ∀ i, pointsPerCell3 i ≠ 0 := by
    intro i; unfold pointsPerCell3; split <;> decide
  have hp2 : ∀ i, pointsPerCell2 i ≠ 0 := by
    intro i; unfold pointsPerCell2; split <;> decide
  rw [e, toR_det, hd]
  split_ifs
  · exact_mod_cast hp id
  · exact_mod_cast hp2 id

/-- C24 for one index: the two conversions are inverse to each other, and the primitive index of `v`
describes with the base the vector that `v` describes with the conventional base. -/
theorem C24_index (py : Py) (id : ℤ) (arg : PArg) (dim : ℤ) (L : BLat)
    (h : BLat.new py id arg dim = .ok L) (v : Fin L.N → ℝ) :
    (∃ w : Fin L.N → ℝ, L.toPrimitiveMiller (.vec v) = .ok (.vec w) ∧
      L.toConventionalMiller (.vec w) = .ok (.vec v) ∧
      ∀ E B, L.E = some E → L.conventionalBase = some B → E *ᵥ w = B *ᵥ v) ∧
    ∃ w : Fin L.N → ℝ, L.toConventionalMiller (.vec v) = .ok (.vec w) ∧
      L.toPrimitiveMiller (.vec w) = .ok (.vec v) := by
  have hu : IsUnit L.C.det := isUnit_det_of_ne (trans_det py id arg dim L h)
  have hprim : ∀ v : Fin L.N → ℝ, L.toPrimitiveMiller (.vec v) = .ok (.vec (L.C *ᵥ v)) := by
    intro v
    simp only [BLat.toPrimitiveMiller, checkIdx, dif_pos, unpackIdx]
    congr 2
  have hconv : ∀ v : Fin L.N → ℝ, L.toConventionalMiller (.vec v) = .ok (.vec (L.C⁻¹ *ᵥ v)) := by
    intro v
    simp only [BLat.toConventionalMiller, checkIdx, dif_pos, unpackIdx]
    congr 2
  refine ⟨⟨L.C *ᵥ v, hprim v, ?_, ?_⟩, ⟨L.C⁻¹ *ᵥ v, hconv v, ?_⟩⟩
  · rw [hconv, Matrix.mulVec_mulVec, Matrix.nonsing_inv_mul _ hu, Matrix.one_mulVec]
  · intro E B hE hB
    rw [BLat.conventionalBase, hE] at hB
    simp only [Option.map_some, Option.some.injEq] at hB
    rw [← hB, BLat.conventionalTrans, Matrix.mulVec_mulVec]
  · rw [hprim, Matrix.mulVec_mulVec, Matrix.mul_nonsing_inv _ hu, Matrix.one_mulVec]

theorem unpackIdx_mat {N m : ℕ} (hm : m ≠ 1) (M : Matrix (Fin m) (Fin N) ℝ) :
    unpackIdx m M = .mat M := by
  unfold unpackIdx
  split
  · exact absurd rfl hm
  · rfl

/-- C24 for lists of indices, one index per row: the list is converted row by row, and the conversions
are inverse to each other.  Missing: lists of exactly one index (`C24_single_fails`). -/
theorem C24_list_partial (py : Py) (id : ℤ) (arg : PArg) (dim : ℤ) (L : BLat)
    (h : BLat.new py id arg dim = .ok L) (m : ℕ) (hm : m ≠ 1) (I : Matrix (Fin m) (Fin L.N) ℝ) :
    (∃ J : Matrix (Fin m) (Fin L.N) ℝ, L.toPrimitiveMiller (.mat I) = .ok (.mat J) ∧
      L.toConventionalMiller (.mat J) = .ok (.mat I) ∧
      ∀ i, L.toPrimitiveMiller (.vec (I i)) = .ok (.vec (J i))) ∧
    ∃ J : Matrix (Fin m) (Fin L.N) ℝ, L.toConventionalMiller (.mat I) = .ok (.mat J) ∧
      L.toPrimitiveMiller (.mat J) = .ok (.mat I) ∧
      ∀ i, L.toConventionalMiller (.vec (I i)) = .ok (.vec (J i)) := by
  have hu : IsUnit L.C.det := isUnit_det_of_ne (trans_det py id arg dim L h)
  have hprim : ∀ I : Matrix (Fin m) (Fin L.N) ℝ,
      L.toPrimitiveMiller (.mat I) = .ok (.mat (L.C * Iᵀ)ᵀ) := by
    intro I
    simp only [BLat.toPrimitiveMiller, checkIdx, dif_pos]
    rw [unpackIdx_mat hm]
    rfl
  have hconv : ∀ I : Matrix (Fin m) (Fin L.N) ℝ,
      L.toConventionalMiller (.mat I) = .ok (.mat (L.C⁻¹ * Iᵀ)ᵀ) := by
    intro I
    simp only [BLat.toConventionalMiller, checkIdx, dif_pos]
    rw [unpackIdx_mat hm]
    rfl
  refine ⟨⟨_, hprim I, ?_, ?_⟩, ⟨_, hconv I, ?_, ?_⟩⟩
  · rw [hconv, Matrix.transpose_transpose, ← Matrix.mul_assoc, Matrix.nonsing_inv_mul _ hu,
      Matrix.one_mul, Matrix.transpose_transpose]
  · intro i
    simp only [BLat.toPrimitiveMiller, checkIdx, dif_pos, unpackIdx]
    congr 2
  · rw [hprim, Matrix.transpose_transpose, ← Matrix.mul_assoc, Matrix.mul_nonsing_inv _ hu,
      Matrix.one_mul, Matrix.transpose_transpose]
  · intro i
    simp only [BLat.toConventionalMiller, checkIdx, dif_pos, unpackIdx]
    congr 2

/-- C24: indices of the wrong length, and arrays that are not 1-D or 2-D, raise `ValueError`. -/
theorem C24_wrong_length (L : BLat) (w m : ℕ) (hw : w ≠ L.N) (v : Fin w → ℝ)
    (I : Matrix (Fin m) (Fin w) ℝ) :
    L.toPrimitiveMiller (.vec v) = .error .valueError ∧
    L.toConventionalMiller (.vec v) = .error .valueError ∧
    L.toPrimitiveMiller (.mat I) = .error .valueError ∧
    L.toConventionalMiller (.mat I) = .error .valueError ∧
    L.toPrimitiveMiller .other = .error .valueError ∧
    L.toConventionalMiller .other = .error .valueError := by
  simp [BLat.toPrimitiveMiller, BLat.toConventionalMiller, checkIdx, hw]

/-- C24 fails for a list that contains one index: the list is lost on the way, in every lattice. -/
theorem C24_single_fails (L : BLat) (I : Matrix (Fin 1) (Fin L.N) ℝ) :
    ∃ w : Fin L.N → ℝ, L.toPrimitiveMiller (.mat I) = .ok (.vec w) ∧
      L.toConventionalMiller (.vec w) ≠ .ok (.mat I) := by
  refine ⟨L.C *ᵥ I 0, ?_, ?_⟩
  · simp only [BLat.toPrimitiveMiller, checkIdx, dif_pos, unpackIdx]
    congr 2
  · simp [BLat.toConventionalMiller, checkIdx, unpackIdx]

/-! ## C18 for `BravaisLattice` -/

theorem C18_bravais_accessors_partial (L : BLat) :
    L.getLatID = L.id ∧ L.getLatParam = L.latParams ∧ L.getConventionalTrans = L.conventionalTrans ∧
      L.getConventionalBase = L.conventionalBase := ⟨rfl, rfl, rfl, rfl⟩

/-- C18 fails for `toPrimitive`: it raises for every lattice and index, also where its replacement
returns a value. -/
theorem C18_toPrimitive_fails (L : BLat) (v : Fin L.N → ℝ) :
    L.toPrimitive (.vec v) = .error .attributeError ∧ ∃ w : Fin L.N → ℝ, L.toPrimitiveMiller (.vec v) =
      .ok (.vec w) := by
  refine ⟨rfl, L.C *ᵥ v, ?_⟩
  simp only [BLat.toPrimitiveMiller, checkIdx, dif_pos, unpackIdx]
  congr 2

/-- C18 fails for `toConventional` in the same way. -/
theorem C18_toConventional_fails (L : BLat) (v : Fin L.N → ℝ) :
    L.toConventional (.vec v) = .error .typeError ∧ ∃ w : Fin L.N → ℝ, L.toConventionalMiller (.vec v) =
      .ok (.vec w) := by
  refine ⟨rfl, L.C⁻¹ *ᵥ v, ?_⟩
  simp only [BLat.toConventionalMiller, checkIdx, dif_pos, unpackIdx]
  congr 2

end Verif.Props
