import Verif.Props.Stretches

/-!
# C98: when `lat_cor` reports the distance zero
-/

namespace Verif.Props

open Matrix Verif.Spec Verif.Model Verif.Lemmas

variable {N : ℕ}

theorem mismatch_zero_iff {EA EM : Matrix (Fin N) (Fin N) ℝ} (hM : EM.det ≠ 0) (L : Matrix (Fin N) (Fin N) ℤ) :
    mismatch EA EM L = 0 ↔ PerfectMatch EA EM L := by
  rw [← mismatch_eq]
  exact C28_zero_iff EA EM EM⁻¹ L (Matrix.mul_nonsing_inv _ (isUnit_det_of_ne hM))

/-- A crystal is a turned sublattice of another just if some correspondence is a perfect match. -/
theorem turnedSublattice_iff {EA EM : Matrix (Fin N) (Fin N) ℝ} (hA : EA.det ≠ 0) (hM : EM.det ≠ 0) :
    TurnedSublattice EA EM ↔ ∃ L : Matrix (Fin N) (Fin N) ℤ, L.det ≠ 0 ∧ PerfectMatch EA EM L := by
  constructor
  · rintro ⟨R, hR, h⟩
    rw [image_latticePoints, latticePoints_subset_iff hA] at h
    obtain ⟨L, hL⟩ := (isIntegral_iff _).mp h
    have e : EA * toR L = R * EM := by
      rw [← hL, ← Matrix.mul_assoc, Matrix.mul_nonsing_inv _ (isUnit_det_of_ne hA), Matrix.one_mul]
    refine ⟨L, ?_, Rᵀ, isOrtho_transpose hR, ?_⟩
    · intro h0
      have := congrArg Matrix.det e
      rw [Matrix.det_mul, toR_det, h0, Int.cast_zero, mul_zero] at this
      exact hM ((turned_det hR EM).mp this.symm)
    · change Rᵀ * (EA * toR L) = EM
      rw [e, ← Matrix.mul_assoc, show Rᵀ * R = 1 from hR, Matrix.one_mul]
  · rintro ⟨L, -, Q, hQ, e⟩
    change Q * (EA * toR L) = EM at e
    refine ⟨Qᵀ, isOrtho_transpose hQ, ?_⟩
    rw [image_latticePoints, latticePoints_subset_iff hA, isIntegral_iff]
    refine ⟨L, ?_⟩
    rw [← e, ← Matrix.mul_assoc Qᵀ, show Qᵀ * Q = 1 from hQ, Matrix.one_mul, ← Matrix.mul_assoc,
      Matrix.nonsing_inv_mul _ (isUnit_det_of_ne hA), Matrix.one_mul]

/-- **C98**: a finished call reports the distance zero just if the second crystal is a turned sublattice of the
first. -/
theorem C98_sublattice {t : Tol} {dim : Option ℕ} {EA EM : Matrix (Fin (readkw dim 3)) (Fin (readkw dim 3)) ℝ} {n : ℕ}
    {rs : List (Report (readkw dim 3))} (h : Finished t dim EA EM n rs) :
    (∃ r, rs.head? = some r ∧ r.d = 0) ↔ TurnedSublattice EA EM := by
  obtain ⟨dA, dM, -, -, -, hl, GA, GM, -, -, hb⟩ := finished_best h
  obtain ⟨-, -, -, -, -, -, -, -, -, -, -, -, -, -, -, -, -, -, -, h1, -⟩ := h
  rw [turnedSublattice_iff dA dM]
  cases rs with
  | nil => exact absurd (h1.trans hl) (Nat.not_succ_le_zero 0)
  | cons r rs =>
    simp only [List.head?_cons, Option.some.injEq, exists_eq_left']
    have hr := hb.dist r List.mem_cons_self
    constructor
    · intro h0
      exact ⟨r.l, hr.2, (mismatch_zero_iff dM _).mp (hr.1 ▸ h0)⟩
    · rintro ⟨L, hL, hp⟩
      have h0 := (mismatch_zero_iff dM L).mpr hp
      refine le_antisymm ?_ (by rw [hr.1, ← mismatch_eq]; exact C28_nonneg _ _ _)
      by_contra hpos
      rw [not_le] at hpos
      by_cases hex : ∃ s ∈ r :: rs, Equivalent GA GM s.l L
      · obtain ⟨s, hs, he⟩ := hex
        have hd : s.d = 0 := by rw [(hb.dist s hs).1, ← mismatch_equivalent hb he, h0]
        have : r.d ≤ s.d := by
          rcases List.mem_cons.mp hs with rfl | hs
          · exact le_rfl
          · exact ((List.pairwise_cons.mp hb.sorted).1 s hs).1
        rw [hd] at this
        exact absurd this (not_le.mpr hpos)
      · have := hb.best L hL hex r List.mem_cons_self
        rw [h0] at this
        exact absurd this (not_lt.mpr hpos.le)

theorem abs_eq_one_of_sq {x : ℝ} (h : x * x = 1) : |x| = 1 := by
  rcases mul_self_eq_one_iff.mp h with rfl | rfl <;> simp

/-- **C98**: two crystals are the same, up to a turn or reflection, just if finished calls in both directions report
the distance zero. -/
theorem C98_same {t t' : Tol} {dim : Option ℕ} {EA EM : Matrix (Fin (readkw dim 3)) (Fin (readkw dim 3)) ℝ} {n n' : ℕ}
    {rs rs' : List (Report (readkw dim 3))} (h : Finished t dim EA EM n rs)
    (h' : Finished t' dim EM EA n' rs') :
    ((∃ r, rs.head? = some r ∧ r.d = 0) ∧ ∃ r, rs'.head? = some r ∧ r.d = 0) ↔ SameCrystal EA EM := by
  rw [C98_sublattice h, C98_sublattice h']
  obtain ⟨dA, dM, -⟩ := finished_best h
  constructor
  · rw [turnedSublattice_iff dA dM, turnedSublattice_iff dM dA]
    rintro ⟨⟨L, hL, Q, hQ, e⟩, L', hL', Q', hQ', e'⟩
    change Q * (EA * toR L) = EM at e
    change Q' * (EM * toR L') = EA at e'
    have hdet : ∀ {R X : Matrix (Fin (readkw dim 3)) (Fin (readkw dim 3)) ℝ}, IsOrtho R → |(R * X).det| = |X.det| := by
      intro R X hR
      have := congrArg Matrix.det (show Rᵀ * R = 1 from hR)
      rw [Matrix.det_mul, Matrix.det_transpose, Matrix.det_one] at this
      rw [Matrix.det_mul, abs_mul, abs_eq_one_of_sq this, one_mul]
    have d1 : |EA.det| * |(L.det : ℝ)| = |EM.det| := by rw [← e, hdet hQ, Matrix.det_mul, abs_mul, toR_det]
    have d2 : |EM.det| * |(L'.det : ℝ)| = |EA.det| := by rw [← e', hdet hQ', Matrix.det_mul, abs_mul, toR_det]
    have d3 : |(L.det : ℝ)| * |(L'.det : ℝ)| = 1 := by
      have hp := abs_pos.mpr dA
      rw [← d1, mul_assoc] at d2
      exact mul_left_cancel₀ hp.ne' (d2.trans (mul_one _).symm)
    have d4 : IsUnit L.det := by
      have : L.det * L'.det = 1 ∨ L.det * L'.det = -1 := by
        rw [← abs_mul, ← Int.cast_mul, ← Int.cast_abs] at d3
        have : |L.det * L'.det| = 1 := by exact_mod_cast d3
        exact (abs_eq one_pos.le).mp this
      rcases this with h | h
      · exact IsUnit.of_mul_eq_one _ h
      · exact IsUnit.of_mul_eq_one (-L'.det) (by rw [mul_neg, h, neg_neg])
    have hLV : toR L * toR L⁻¹ = 1 := by rw [← toR_mul, Matrix.mul_nonsing_inv _ d4, toR_one]
    have hQA : (Q * EA).det ≠ 0 := fun h => dA ((turned_det hQ EA).mp h)
    refine ⟨Q, hQ, ?_⟩
    rw [image_latticePoints]
    apply Set.Subset.antisymm
    · rw [latticePoints_subset_iff hQA, isIntegral_iff]
      refine ⟨L, ?_⟩
      rw [← e, ← Matrix.mul_assoc Q, ← Matrix.mul_assoc, Matrix.nonsing_inv_mul _ (isUnit_det_of_ne hQA), Matrix.one_mul]
    · rw [latticePoints_subset_iff dM, isIntegral_iff]
      refine ⟨L⁻¹, ?_⟩
      calc EM⁻¹ * (Q * EA) = EM⁻¹ * (Q * EA) * (toR L * toR L⁻¹) := by rw [hLV, Matrix.mul_one]
        _ = EM⁻¹ * (Q * (EA * toR L)) * toR L⁻¹ := by simp only [Matrix.mul_assoc]
        _ = toR L⁻¹ := by rw [e, Matrix.nonsing_inv_mul _ (isUnit_det_of_ne dM), Matrix.one_mul]
  · intro hc
    obtain ⟨R, U, V, hR, hVU, hUV, e⟩ := sameCrystal_base dA dM hc
    have d : ∀ {X Y : Matrix (Fin (readkw dim 3)) (Fin (readkw dim 3)) ℤ}, X * Y = 1 → X.det ≠ 0 := by
      intro X Y h h0
      have := congrArg Matrix.det h
      rw [Matrix.det_mul, h0, zero_mul, Matrix.det_one] at this
      exact zero_ne_one this
    have hUV' : toR U * toR V = 1 := by rw [← toR_mul, hUV, toR_one]
    refine ⟨(turnedSublattice_iff dA dM).mpr ⟨U, d hUV, R, hR, ?_⟩,
      (turnedSublattice_iff dM dA).mpr ⟨V, d hVU, Rᵀ, isOrtho_transpose hR, ?_⟩⟩
    · change R * (EA * toR U) = EM
      rw [e, Matrix.mul_assoc]
    · change Rᵀ * (EM * toR V) = EA
      rw [e, Matrix.mul_assoc, hUV', Matrix.mul_one, ← Matrix.mul_assoc, show Rᵀ * R = 1 from hR, Matrix.one_mul]

/-! ### The hypotheses are met -/

/-- A rectangular lattice onto itself, with the sides in either order: the distance reported is zero. -/
example (py : Py) : ∃ rs rs' : List (Report 2),
    Finished .exact (some 2) (Matrix.diagonal ![1, 2]) (Matrix.diagonal ![1, 2]) 1 rs ∧
    Finished .exact (some 2) (Matrix.diagonal ![2, 1]) (Matrix.diagonal ![2, 1]) 1 rs' ∧
    (∃ r, rs.head? = some r ∧ r.d = 0) ∧ ∃ r, rs'.head? = some r ∧ r.d = 0 := by
  obtain ⟨rs, rs', h, h', -⟩ := rectangle_finished py
  exact ⟨rs, rs', h, h', (C98_same (dim := some 2) h h).mpr (sameCrystal_refl _) |>.1,
    (C98_same (dim := some 2) h' h').mpr (sameCrystal_refl _) |>.1⟩

end Verif.Props
