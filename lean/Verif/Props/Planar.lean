import Verif.Props.LatCorRuns

/-!
# C16, C73, C77: all symmetries of the plane lattices

The reflections of the plane lattices that have a reflection in a coordinate axis: all types of the program but
the oblique one.
-/

namespace Verif.Props

open Verif.Model Verif.Spec Verif.Lemmas Matrix

/-- the reflection in the first coordinate axis is in both tables, so it is found -/
theorem axis_mem (t : Tol) {E : Matrix (Fin 2) (Fin 2) ℝ} (hE : E.det ≠ 0) (hr : Reliable t E candidates2)
    (hm : InPointGroup E (toR !![1, 0; 0, -1])) {p : List (Matrix (Fin 2) (Fin 2) ℝ)}
    (hp : Lat.pointGroup t ⟨2, E⟩ = .ok p) : toR !![1, 0; 0, -1] ∈ p := by
  rw [pointGroup_two] at hp
  obtain ⟨T, hT, h⟩ := select_ok t hE (squareExt.map .int) hex2dExt 4
  rw [hp] at h
  cases h
  have hmT : NMat.int (!![1, 0; 0, -1] : Matrix (Fin 2) (Fin 2) ℤ) ∈ T := by
    rcases hT with rfl | rfl
    · exact List.mem_map.mpr ⟨_, by unfold squareExt; decide +kernel, rfl⟩
    · simp [hex2dExt]
  have hT' : Reliable t E (T.map NMat.val) := hr.mono (by
    intro Q hQ
    rcases hT with rfl | rfl
    · rw [map_int_val] at hQ
      exact List.mem_append_left _ hQ
    · exact List.mem_append_right _ hQ)
  refine List.mem_map.mpr ⟨_, List.mem_filter.mpr ⟨hmT, ?_⟩, rfl⟩
  rw [passes_reliable hE hT' _ hmT]
  exact hm

/-- **C16** in two dimensions: if the reflection in the first coordinate axis is a symmetry of the lattice,
`point_group` holds all symmetries of the lattice, each once.  Missing: other lattices, for which it is false
(`C16_2d_fails`, `C77_same_solution_twice_fails`). -/
theorem C16_full_2d_partial (t : Tol) (E : Matrix (Fin 2) (Fin 2) ℝ) (hE : E.det ≠ 0) (hr : Reliable t E candidates2)
    (hm : InPointGroup E (toR !![1, 0; 0, -1])) :
    ∃ p, Lat.pointGroup t ⟨2, E⟩ = .ok p ∧ IsFullPointGroup E p := by
  obtain ⟨p, hp, hs⟩ := C16_point_group_2d_partial t E hE hr
  obtain ⟨g, p', hg, hp', hsub⟩ := C16_contains_laue_2d_partial t E hE hr hm
  obtain ⟨g', hg', -, hfull⟩ := C73_plane t E hE hr
  rw [hp] at hp'
  cases hp'
  rw [hg] at hg'
  cases hg'
  refine ⟨p, hp, hs.nodup, fun Q => ⟨hs.sym Q, fun hQ => ?_⟩⟩
  have hD := axis_mem t hE hr hm hp
  have hd : Q.det * Q.det = 1 := by
    have := congrArg Matrix.det hQ.1
    rwa [Matrix.det_mul, Matrix.det_transpose, Matrix.det_one] at this
  rcases mul_self_eq_one_iff.mp hd with hd | hd
  · exact hsub Q ((hfull Q).mpr ⟨hQ, hd⟩)
  · have hDD : toR !![1, 0; 0, -1] * toR !![1, 0; 0, -1] = (1 : Matrix (Fin 2) (Fin 2) ℝ) := by
      rw [← toR_mul, show (!![1, 0; 0, -1] * !![1, 0; 0, -1] : Matrix (Fin 2) (Fin 2) ℤ) = 1 by decide +kernel, toR_one]
    have hQD : InPointGroup E (Q * toR !![1, 0; 0, -1]) := inPointGroup_mul hQ hm
    have hdet : (Q * toR !![1, 0; 0, -1]).det = 1 := by
      rw [Matrix.det_mul, hd]
      norm_num [toR, Matrix.det_fin_two]
    have := hs.mul _ (hsub _ ((hfull _).mpr ⟨hQD, hdet⟩)) _ hD
    rwa [Matrix.mul_assoc, hDD, Matrix.mul_one] at this

theorem primBase2_of_new {py : Py} {id : ℤ} {arg : PArg} {E : Matrix (Fin 2) (Fin 2) ℝ} {x : Nums}
    {C : Matrix (Fin 2) (Fin 2) ℝ} (h : BLat.new py id arg 2 = .ok ⟨2, some E, id, x, C⟩) :
    primBase2 id x.get = E := by
  unfold BLat.new at h
  split at h
  · cases h
  rename_i y hy
  rw [if_neg (by decide), if_pos rfl] at h
  split_ifs at h with hid hlen
  dsimp only at h
  split at h
  · cases h
  injection h with h
  injection h with _ h1 _ h2 _
  subst h2
  injection h1

/-- The plane lattices of the types square, rectangular, centred rectangular and hexagonal have the reflection in the
first coordinate axis. -/
theorem types_axis {id : ℤ} (hid : 1 ≤ id ∧ id ≤ 4) (p : ℕ → ℝ) (hE : (primBase2 id p).det ≠ 0) :
    InPointGroup (primBase2 id p) (toR !![1, 0; 0, -1]) := by
  have key : ∀ M : Matrix (Fin 2) (Fin 2) ℤ, toR !![1, 0; 0, -1] * primBase2 id p = primBase2 id p * toR M →
      InPointGroup (primBase2 id p) (toR !![1, 0; 0, -1]) := by
    intro M h
    refine (inPointGroup_iff hE).mpr ⟨?_, ?_⟩
    · ext i j
      fin_cases i <;> fin_cases j <;> simp [toR, Matrix.mul_apply]
    · rw [h, ← Matrix.mul_assoc, Matrix.nonsing_inv_mul _ (isUnit_det_of_ne hE), Matrix.one_mul]
      exact fun i j => ⟨M i j, rfl⟩
  have h4 : id = 1 ∨ id = 2 ∨ id = 3 ∨ id = 4 := by omega
  rcases h4 with rfl | rfl | rfl | rfl
  · apply key !![1, 0; 0, -1]
    ext i j
    fin_cases i <;> fin_cases j <;> simp [primBase2, toR, Matrix.mul_apply, Fin.sum_univ_two]
  · apply key !![1, 0; 0, -1]
    ext i j
    fin_cases i <;> fin_cases j <;> simp [primBase2, toR, Matrix.mul_apply, Fin.sum_univ_two]
  · apply key !![0, -1; -1, 0]
    ext i j
    fin_cases i <;> fin_cases j <;> simp [primBase2, toR, Matrix.mul_apply, Fin.sum_univ_two]
  · apply key !![1, 1; 0, -1]
    ext i j
    fin_cases i <;> fin_cases j <;> simp [primBase2, toR, Matrix.mul_apply, Fin.sum_univ_two]
    ring

/-- **C16**, the plane lattice types: for square, rectangular, centred rectangular and hexagonal lattices, whatever
their parameters, `point_group` holds all symmetries of the lattice, each once.  Missing: the oblique lattices, for
which it is false (`C77_same_solution_twice_fails`). -/
theorem C16_types_2d_partial (t : Tol) (py : Py) (id : ℤ) (hid : 1 ≤ id ∧ id ≤ 4) (arg : PArg)
    (E C : Matrix (Fin 2) (Fin 2) ℝ) (h : Constructs py id arg 2 E C) (hr : Reliable t E candidates2) :
    ∃ p, Lat.pointGroup t ⟨2, E⟩ = .ok p ∧ IsFullPointGroup E p := by
  have hE := (constructs_det h).2.1
  obtain ⟨L, hN, h1, h2, h3⟩ := h
  have hid' := (C21_accepted py id arg 2 L h1).2.2.1
  obtain ⟨N', E', id', p', C'⟩ := L
  dsimp only at hN h2
  subst hN
  rw [castSq_rfl] at h2
  subst h2
  change id' = id at hid'
  subst hid'
  have hb := primBase2_of_new h1
  refine C16_full_2d_partial t E hE hr ?_
  rw [← hb] at hE ⊢
  exact types_axis hid _ hE

/-- the matrices with respect to the base -/
theorem latticeGroup_of_full (t : Tol) {E : Matrix (Fin N) (Fin N) ℝ} (hE : E.det ≠ 0)
    (hf : ∃ p, Lat.pointGroup t ⟨N, E⟩ = .ok p ∧ IsFullPointGroup E p) :
    ∃ G, Lat.latticeGroup t ⟨N, E⟩ = .ok G ∧ ∀ M, M ∈ G ↔ IsLatticeSym E M := by
  obtain ⟨p, h2, -, hfull⟩ := hf
  refine ⟨p.map (Lat.conj ⟨N, E⟩), by simp only [Lat.latticeGroup, h2], fun M => ⟨?_, ?_⟩⟩
  · intro hM
    obtain ⟨Q, hQ, rfl⟩ := List.mem_map.mp hM
    have := (hfull Q).mp hQ
    exact ⟨Q, mul_eq_one_comm.mp this.1, (conj_spec hE this).symm⟩
  · rintro ⟨Q, hQ, h⟩
    have hQ' : Q * Qᵀ = 1 := mul_eq_one_comm.mp hQ
    have hin : InPointGroup E Q := (inPointGroup_iff hE).mpr ⟨hQ', by
      rw [h, ← Matrix.mul_assoc, Matrix.nonsing_inv_mul _ (isUnit_det_of_ne hE), Matrix.one_mul]
      intro i j
      exact ⟨M i j, rfl⟩⟩
    exact List.mem_map.mpr ⟨Q, (hfull Q).mpr hin, conj_unique hE ((conj_spec hE hin).trans h)⟩

/-- **C77**, the symmetries, plane lattices: for square, rectangular, centred rectangular and hexagonal lattices the
group with respect to which `lat_cor` regards correspondences as equivalent holds all symmetries of the lattice. -/
theorem C77_symmetries_2d_partial (t : Tol) (py : Py) (id : ℤ) (hid : 1 ≤ id ∧ id ≤ 4) (arg : PArg)
    (E C : Matrix (Fin 2) (Fin 2) ℝ) (h : Constructs py id arg 2 E C) (hr : Reliable t E candidates2) :
    ∃ G, Lat.latticeGroup t ⟨2, E⟩ = .ok G ∧ ∀ M, M ∈ G ↔ IsLatticeSym E M :=
  latticeGroup_of_full t (constructs_det h).2.1 (C16_types_2d_partial t py id hid arg E C h hr)

/-- the centred rectangular lattice with the sides `2/√5` and `4/√5` -/
noncomputable def centred : Matrix (Fin 2) (Fin 2) ℝ := (1 / Real.sqrt 5) • !![1, -1; 2, 2]

/-- its parameters -/
noncomputable def centredParam : PArg := .list (.float [2 / Real.sqrt 5, 4 / Real.sqrt 5])

theorem centred_det : centred.det = 4 / 5 := by
  have h5 : Real.sqrt 5 * Real.sqrt 5 = 5 := Real.mul_self_sqrt (by norm_num)
  have hp : 0 < Real.sqrt 5 := Real.sqrt_pos.mpr (by norm_num)
  simp only [centred, Matrix.det_smul, Matrix.det_fin_two, Fintype.card_fin]
  norm_num
  
theorem centred_constructs (py : Py) : ∃ C, Constructs py 3 centredParam 2 centred C := by
  have hp : 0 < Real.sqrt 5 := Real.sqrt_pos.mpr (by norm_num)
  have hb : primBase2 3 (Nums.get (.float [2 / Real.sqrt 5, 4 / Real.sqrt 5])) = centred := by
    ext i j
    fin_cases i <;> fin_cases j <;> simp [primBase2, Nums.get, Nums.vals, centred] <;> ring
  refine ⟨(centring2 3)⁻¹, ⟨2, some centred, 3, .float [2 / Real.sqrt 5, 4 / Real.sqrt 5], (centring2 3)⁻¹⟩, rfl, ?_, rfl, rfl⟩
  have hch : checkParam centredParam = .ok (.float [2 / Real.sqrt 5, 4 / Real.sqrt 5]) := by
    unfold centredParam
    simp only [checkParam]
    rw [if_neg]
    simp only [Nums.vals, List.mem_cons, List.not_mem_nil, or_false, not_exists, not_and, not_le]
    rintro v (rfl | rfl) <;> positivity
  have hi : initBase (some centred) = .ok () := by
    simp only [initBase]
    rw [lat_new_sq false (by rw [centred_det]; norm_num)]
  simp only [BLat.new, hch]
  norm_num [Nums.vals, paramLen2, hb, hi]
  exact fun h => absurd rfl h

/-- the hypotheses are met by a lattice with irrational base vectors -/
example (py : Py) : ∃ C, Constructs py 3 centredParam 2 centred C ∧ Reliable .exact centred candidates2 := by
  obtain ⟨C, h⟩ := centred_constructs py
  exact ⟨C, h, .inl rfl⟩

end Verif.Props
