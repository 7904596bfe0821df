import Verif.Lemmas.Rank1
import Verif.Model.Twin
import Verif.Spec.Twin

/-!
# Lemmas on twins: half turns, uniqueness of square roots, axes
-/

namespace Verif.Lemmas

open Matrix Verif.Model Verif.Spec

local notation "Mat3" => Matrix (Fin 3) (Fin 3) ℝ

/-! ### square roots -/

theorem spd_trace_zero {A D : Mat3} (hA : IsSPD A) (hD : Dᵀ = D) (h : (D * A * D).trace ≤ 0) : D = 0 := by
  have hcol : ∀ j, (D * A * D) j j = D.col j ⬝ᵥ A *ᵥ D.col j := by
    intro j
    have hrow : ∀ i, D j i = D i j := fun i => by rw [← Matrix.transpose_apply D, hD]
    simp only [Matrix.mul_apply, dotProduct, mulVec, Matrix.col_apply, Finset.mul_sum, Finset.sum_mul, hrow]
    rw [Finset.sum_comm]
    exact Finset.sum_congr rfl fun i _ => Finset.sum_congr rfl fun k _ => by ring
  have hnn : ∀ x : V3, 0 ≤ x ⬝ᵥ A *ᵥ x := by
    intro x
    by_cases hx : x = 0
    · simp [hx]
    · exact (hA.2 x hx).le
  have hz : ∀ j, D.col j = 0 := by
    intro j
    by_contra hj
    have hpos := hA.2 _ hj
    have : 0 < (D * A * D).trace := by
      rw [Matrix.trace]
      refine lt_of_lt_of_le hpos ?_
      simp only [Matrix.diag_apply, hcol]
      exact Finset.single_le_sum (f := fun i => D.col i ⬝ᵥ A *ᵥ D.col i) (fun i _ => hnn _) (Finset.mem_univ j)
    linarith
  ext i j
  exact congrFun (hz j) i

/-- A symmetric positive definite matrix has one symmetric positive definite square root. -/
theorem spd_sq_inj {A B : Mat3} (hA : IsSPD A) (hB : IsSPD B) (h : A * A = B * B) : A = B := by
  have hs : (A - B)ᵀ = A - B := by rw [transpose_sub, hA.1, hB.1]
  have h0 : A * (A - B) + (A - B) * B = 0 := by rw [mul_sub, sub_mul, h]; abel
  have ht : ((A - B) * A * (A - B)).trace + ((A - B) * B * (A - B)).trace = 0 := by
    rw [Matrix.mul_assoc, Matrix.mul_assoc (A - B) B, Matrix.trace_mul_comm (A - B) (B * (A - B)), ← Matrix.trace_add]
    have e : (A - B) * (A * (A - B)) + B * (A - B) * (A - B) =
        (A - B) * (A * (A - B)) + B * (A - B) * (A - B) := rfl
    have h1 : ((B * (A - B)) * (A - B)).trace = ((A - B) * ((A - B) * B)).trace := by
      rw [Matrix.mul_assoc, Matrix.trace_mul_comm, Matrix.mul_assoc]
    rw [Matrix.trace_add, h1, ← Matrix.trace_add, ← Matrix.mul_add, h0, Matrix.mul_zero, Matrix.trace_zero]
  rcases le_total ((A - B) * A * (A - B)).trace 0 with h1 | h1
  · exact sub_eq_zero.1 (spd_trace_zero hA hs h1)
  · exact sub_eq_zero.1 (spd_trace_zero hB hs (by linarith))

/-! ### half turns -/

theorem r180_eq (e : V3) : r180 e = halfTurn e := by
  rw [r180, halfTurn, outer_eq, neg_add_eq_sub]

theorem halfTurn_symm (e : V3) : (halfTurn e)ᵀ = halfTurn e := by
  rw [halfTurn, transpose_sub, transpose_smul, transpose_vecMulVec, transpose_one]

theorem halfTurn_sq {e : V3} (he : e ⬝ᵥ e = 1) : halfTurn e * halfTurn e = 1 := by
  rw [halfTurn, mul_sub, sub_mul, sub_mul, one_mul, mul_one, mul_one, smul_mul_smul_comm,
    vecMulVec_mul_vecMulVec, he, one_smul]
  ext i j
  simp only [Matrix.sub_apply, Matrix.smul_apply, smul_eq_mul]
  ring

theorem halfTurn_det {e : V3} (he : e ⬝ᵥ e = 1) : (halfTurn e).det = 1 := by
  rw [dot3] at he
  rw [halfTurn, det_fin_three]
  simp [vecMulVec_apply, Matrix.one_apply]
  linear_combination 2 * he

theorem halfTurn_rotation {e : V3} (he : e ⬝ᵥ e = 1) : IsRotation (halfTurn e) :=
  ⟨by rw [halfTurn_symm]; exact halfTurn_sq he, halfTurn_det he⟩

theorem halfTurn_mulVec (e x : V3) : halfTurn e *ᵥ x = (2 * (e ⬝ᵥ x)) • e - x := by
  rw [halfTurn, sub_mulVec, one_mulVec, smul_mulVec, vecMulVec_mulVec]
  ext i
  simp
  ring

theorem halfTurn_neg (e : V3) : halfTurn (-e) = halfTurn e := by
  rw [halfTurn, halfTurn, neg_vecMulVec, vecMulVec_neg, neg_neg]

theorem rotation_mul {P Q : Mat3} (hP : IsRotation P) (hQ : IsRotation Q) : IsRotation (P * Q) := by
  refine ⟨?_, by rw [det_mul, hP.2, hQ.2, one_mul]⟩
  rw [transpose_mul, Matrix.mul_assoc, ← Matrix.mul_assoc Q, hQ.1, Matrix.one_mul, hP.1]

theorem conj_spd {U R : Mat3} (hU : IsSPD U) (hR' : R * Rᵀ = 1) : IsSPD (R * U * Rᵀ) := by
  refine ⟨by rw [transpose_mul, transpose_mul, transpose_transpose, hU.1, Matrix.mul_assoc], fun x hx => ?_⟩
  have h : x ⬝ᵥ (R * U * Rᵀ) *ᵥ x = (Rᵀ *ᵥ x) ⬝ᵥ U *ᵥ (Rᵀ *ᵥ x) := by
    rw [← mulVec_mulVec, ← mulVec_mulVec, dotProduct_mulVec x R, ← mulVec_transpose]
  rw [h]
  refine hU.2 _ fun h0 => hx ?_
  have := congrArg (fun y => R *ᵥ y) h0
  simpa [mulVec_mulVec, hR'] using this

/-! ### the two solutions of the twinning equation -/

/-- `halfTurn p * U * halfTurn e`, expanded. -/
theorem turn_mul_turn {U : Mat3} (hU : Uᵀ = U) (p e : V3) :
    halfTurn p * U * halfTurn e = U + (vecMulVec ((4 * (p ⬝ᵥ U *ᵥ e)) • p) e -
      vecMulVec ((2 : ℝ) • p) (U *ᵥ p) - vecMulVec ((2 : ℝ) • U *ᵥ e) e) := by
  have h1 : vecMulVec p p * U = vecMulVec p (U *ᵥ p) := by
    rw [vecMulVec_mul, ← mulVec_transpose, hU]
  have h2 : U * vecMulVec e e = vecMulVec (U *ᵥ e) e := by rw [mul_vecMulVec]
  rw [halfTurn, halfTurn, sub_mul, one_mul, mul_sub, mul_one, sub_mul, smul_mul_assoc, h1, mul_smul_comm,
    mul_smul_comm, h2, smul_mul_assoc, vecMulVec_mul_vecMulVec]
  have h3 : (U *ᵥ p) ⬝ᵥ e = p ⬝ᵥ U *ᵥ e := (sym_dot hU p e).symm
  rw [h3]
  ext i j
  simp only [Matrix.add_apply, Matrix.sub_apply, Matrix.smul_apply, vecMulVec_apply, Pi.smul_apply, smul_eq_mul]
  ring

/-- The first solution: `R_p R_e (R_e U R_e) = U + a ⊗ e`. -/
theorem twin_one {U : Mat3} (hU : Uᵀ = U) {e g : V3} (hg : U *ᵥ g = e) (hd : g ⬝ᵥ g ≠ 0)
    (he : e ⬝ᵥ e = 1) :
    ∃ Q, IsRotation Q ∧
      Q * (halfTurn e * U * halfTurn e) = U + vecMulVec ((2 : ℝ) • ((g ⬝ᵥ g)⁻¹ • g - U *ᵥ e)) e := by
  have hpos : 0 < g ⬝ᵥ g := lt_of_le_of_ne (Finset.sum_nonneg fun i _ => mul_self_nonneg _) (Ne.symm hd)
  set k := Real.sqrt (g ⬝ᵥ g) with hk
  have hkk : k * k = g ⬝ᵥ g := Real.mul_self_sqrt hpos.le
  have hk0 : k ≠ 0 := (Real.sqrt_pos.2 hpos).ne'
  have hp : (k⁻¹ • g) ⬝ᵥ (k⁻¹ • g) = 1 := by
    rw [smul_dotProduct, dotProduct_smul, smul_eq_mul, smul_eq_mul, ← hkk]
    field_simp
  refine ⟨halfTurn (k⁻¹ • g) * halfTurn e, rotation_mul (halfTurn_rotation hp) (halfTurn_rotation he), ?_⟩
  have e1 : halfTurn (k⁻¹ • g) * halfTurn e * (halfTurn e * U * halfTurn e) =
      halfTurn (k⁻¹ • g) * U * halfTurn e := by
    calc _ = halfTurn (k⁻¹ • g) * (halfTurn e * halfTurn e) * U * halfTurn e := by
          simp only [Matrix.mul_assoc]
      _ = _ := by rw [halfTurn_sq he, Matrix.mul_one]
  have h2 : (k⁻¹ • g) ⬝ᵥ U *ᵥ e = k⁻¹ := by
    rw [sym_dot hU, mulVec_smul, hg, smul_dotProduct, he, smul_eq_mul, mul_one]
  rw [e1, turn_mul_turn hU, h2, mulVec_smul, hg, ← hkk]
  congr 1
  ext i j
  simp only [Matrix.sub_apply, vecMulVec_apply, Pi.smul_apply, Pi.sub_apply, smul_eq_mul]
  field_simp
  ring

/-- The second solution: `R_q R_e (R_e U R_e) = U + U e ⊗ n`. -/
theorem twin_two {U : Mat3} (hU : Uᵀ = U) {e : V3} (hd : (U *ᵥ e) ⬝ᵥ (U *ᵥ e) ≠ 0) (he : e ⬝ᵥ e = 1) :
    ∃ Q, IsRotation Q ∧ Q * (halfTurn e * U * halfTurn e) =
      U + vecMulVec (U *ᵥ e) ((2 : ℝ) • (e - ((U *ᵥ e) ⬝ᵥ (U *ᵥ e))⁻¹ • U *ᵥ (U *ᵥ e))) := by
  have hpos : 0 < (U *ᵥ e) ⬝ᵥ (U *ᵥ e) :=
    lt_of_le_of_ne (Finset.sum_nonneg fun i _ => mul_self_nonneg _) (Ne.symm hd)
  set g := U *ᵥ e with hg
  set k := Real.sqrt (g ⬝ᵥ g) with hk
  have hkk : k * k = g ⬝ᵥ g := Real.mul_self_sqrt hpos.le
  have hk0 : k ≠ 0 := (Real.sqrt_pos.2 hpos).ne'
  have hp : (k⁻¹ • g) ⬝ᵥ (k⁻¹ • g) = 1 := by
    rw [smul_dotProduct, dotProduct_smul, smul_eq_mul, smul_eq_mul, ← hkk]
    field_simp
  refine ⟨halfTurn (k⁻¹ • g) * halfTurn e, rotation_mul (halfTurn_rotation hp) (halfTurn_rotation he), ?_⟩
  have e1 : halfTurn (k⁻¹ • g) * halfTurn e * (halfTurn e * U * halfTurn e) =
      halfTurn (k⁻¹ • g) * U * halfTurn e := by
    calc _ = halfTurn (k⁻¹ • g) * (halfTurn e * halfTurn e) * U * halfTurn e := by
          simp only [Matrix.mul_assoc]
      _ = _ := by rw [halfTurn_sq he, Matrix.mul_one]
  have h2 : (k⁻¹ • g) ⬝ᵥ g = k := by
    rw [smul_dotProduct, smul_eq_mul, ← hkk]
    field_simp
  rw [e1, turn_mul_turn hU, ← hg, h2, mulVec_smul, ← hkk]
  congr 1
  ext i j
  simp only [Matrix.sub_apply, vecMulVec_apply, Pi.smul_apply, Pi.sub_apply, smul_eq_mul]
  field_simp
  ring

/-! ### axes -/

/-- Orthonormal vectors resolve the identity. -/
theorem frame_sum {v : Fin 3 → V3} (h : ∀ i j, v i ⬝ᵥ v j = if i = j then 1 else 0) :
    ∑ k, vecMulVec (v k) (v k) = (1 : Mat3) := by
  have h1 : (Matrix.of v : Mat3) * (Matrix.of v : Mat3)ᵀ = 1 := by
    ext i j
    rw [Matrix.mul_apply, Matrix.one_apply, ← h i j]
    rfl
  have h2 := mul_eq_one_comm.1 h1
  rw [← h2]
  ext i j
  rw [Matrix.sum_apply, Matrix.mul_apply]
  rfl

/-- The data of a twin: the vectors `w k = U v k`. -/
structure Frame (U V : Mat3) (l : Fin 3 → ℝ) (w : Fin 3 → V3) : Prop where
  sqU : U * U = ∑ k, vecMulVec (w k) (w k)
  sqV : V * V = ∑ k, l k • vecMulVec (w k) (w k)
  indep : ∃ W' : Mat3, W' * (Matrix.of fun i j => w j i) = 1
  one : l 1 = 1
  prod : l 0 * l 2 = 1
  gt : 1 < l 2

theorem frame_of {U V : Mat3} (hU : IsSPD U) (hV : IsSPD V) (hUV : U ≠ V) (hdet : U.det = V.det)
    (hUd : U.det ≠ 0) {l : Fin 3 → ℝ} {v : Fin 3 → V3}
    (he : EigOK l v ((U⁻¹ * V) * (V * U⁻¹))) (hm : Monotone l) (h1 : l 1 = 1) (hpos : ∀ i, 0 < l i) :
    Frame U V l (fun k => U *ᵥ v k) := by
  have hu : IsUnit U.det := isUnit_iff_ne_zero.2 hUd
  have hUi : (U⁻¹)ᵀ = U⁻¹ := by rw [transpose_nonsing_inv, hU.1]
  set C := (U⁻¹ * V) * (V * U⁻¹) with hC
  have hCs : Cᵀ = C := by
    rw [hC, transpose_mul, transpose_mul, transpose_mul, hUi, hV.1]
  have hUCU : U * C * U = V * V := by
    rw [hC]
    calc U * (U⁻¹ * V * (V * U⁻¹)) * U = (U * U⁻¹) * V * V * (U⁻¹ * U) := by simp only [Matrix.mul_assoc]
      _ = V * V := by rw [mul_nonsing_inv _ hu, nonsing_inv_mul _ hu, Matrix.one_mul, Matrix.mul_one]
  have hdC : l 0 * l 1 * l 2 = 1 := by
    rw [← det_three he.eigenvalues, hC, det_mul, det_mul, det_mul, det_nonsing_inv, Ring.inverse_eq_inv', ← hdet]
    field_simp
  have h01 : l 0 ≤ l 1 := hm (by decide)
  have h12 : l 1 ≤ l 2 := hm (by decide)
  have hprod : l 0 * l 2 = 1 := by rw [h1, mul_one] at hdC; exact hdC
  -- the eigenvalues are distinct
  have hgt : 1 < l 2 := by
    rcases eq_or_lt_of_le (h1 ▸ h12) with h2 | h2
    swap
    · exact h2
    exfalso
    have h0 : l 0 = 1 := by rw [← h2, mul_one] at hprod; exact hprod
    have hall : ∀ i, l i = 1 := by
      intro i
      fin_cases i
      · exact h0
      · exact h1
      · exact h2.symm
    -- `C = 1`
    have hH : C.IsHermitian := by
      rw [Matrix.IsHermitian, Matrix.conjTranspose_eq_transpose_of_trivial]; exact hCs
    have hC1 : C = 1 := eq_one_of_eigenvalues hH he.eigenvalues hall
    rw [hC1, Matrix.mul_one] at hUCU
    exact hUV (spd_sq_inj hU hV hUCU)
  have h0lt : l 0 < 1 := by
    by_contra hc
    push Not at hc
    nlinarith
  have horth : ∀ i j, v i ⬝ᵥ v j = if i = j then 1 else 0 := by
    intro i j
    split_ifs with hij
    · rw [hij]; exact he.unit j
    · refine eig_orth hCs (he.eigenvector i) (he.eigenvector j) ?_
      fin_cases i <;> fin_cases j <;> first | exact absurd rfl hij | skip
      · show l 0 ≠ l 1; rw [h1]; exact h0lt.ne
      · show l 0 ≠ l 2; exact (h0lt.trans hgt).ne
      · show l 1 ≠ l 0; rw [h1]; exact h0lt.ne'
      · show l 1 ≠ l 2; rw [h1]; exact hgt.ne
      · show l 2 ≠ l 0; exact (h0lt.trans hgt).ne'
      · show l 2 ≠ l 1; rw [h1]; exact hgt.ne'
  have hsum := frame_sum horth
  have hconj : ∀ x y : V3, U * vecMulVec x y * U = vecMulVec (U *ᵥ x) (U *ᵥ y) := by
    intro x y
    rw [mul_vecMulVec, vecMulVec_mul, ← mulVec_transpose, hU.1]
  refine ⟨?_, ?_, ⟨(Matrix.of v : Mat3) * U⁻¹, ?_⟩, h1, hprod, hgt⟩
  · calc U * U = U * (∑ k, vecMulVec (v k) (v k)) * U := by rw [hsum, Matrix.mul_one]
      _ = _ := by
        rw [Matrix.mul_sum, Matrix.sum_mul]
        exact Finset.sum_congr rfl fun k _ => hconj _ _
  · calc V * V = U * (C * ∑ k, vecMulVec (v k) (v k)) * U := by rw [hsum, Matrix.mul_one, hUCU]
      _ = _ := by
        rw [Matrix.mul_sum, Matrix.mul_sum, Matrix.sum_mul]
        refine Finset.sum_congr rfl fun k _ => ?_
        rw [mul_vecMulVec, he.eigenvector, hconj, mulVec_smul, smul_vecMulVec]
  · have hW : (Matrix.of fun i j => (U *ᵥ v j) i : Mat3) = U * (Matrix.of v : Mat3)ᵀ := by
      ext i j
      rw [Matrix.mul_apply]
      rfl
    have hvv : (Matrix.of v : Mat3) * (Matrix.of v : Mat3)ᵀ = 1 := by
      ext i j
      rw [Matrix.mul_apply, Matrix.one_apply, ← horth i j]
      rfl
    rw [hW, Matrix.mul_assoc, ← Matrix.mul_assoc U⁻¹, nonsing_inv_mul _ hu, Matrix.one_mul, hvv]

theorem three_sum (f : Fin 3 → Mat3) : ∑ k, f k = f 0 + f 1 + f 2 := Fin.sum_univ_three f

theorem frame_trace {U V : Mat3} {l : Fin 3 → ℝ} {w : Fin 3 → V3} (hF : Frame U V l w)
    (h2 : (U * U).trace = (V * V).trace) : w 0 ⬝ᵥ w 0 = l 2 * (w 2 ⬝ᵥ w 2) := by
  rw [hF.sqU, hF.sqV, three_sum, three_sum, hF.one, one_smul] at h2
  simp only [trace_add, trace_smul, trace_vecMulVec, smul_eq_mul] at h2
  have hp := hF.prod
  have hg := hF.gt
  have h3 : (1 - l 2) * (w 0 ⬝ᵥ w 0 - l 2 * (w 2 ⬝ᵥ w 2)) = 0 := by
    linear_combination (-l 2) * h2 - (w 0 ⬝ᵥ w 0) * hp
  rcases mul_eq_zero.1 h3 with h | h <;> linarith

theorem frame_trace_four {U V : Mat3} {l : Fin 3 → ℝ} {w : Fin 3 → V3} (hF : Frame U V l w)
    (h2 : (U * U).trace = (V * V).trace) (h4 : (U * U * (U * U)).trace = (V * V * (V * V)).trace) :
    (w 1 ⬝ᵥ w 0) ^ 2 = l 2 * (w 1 ⬝ᵥ w 2) ^ 2 := by
  have h0 := frame_trace hF h2
  rw [hF.sqU, hF.sqV, three_sum, three_sum, hF.one, one_smul] at h4
  simp only [add_mul, mul_add, smul_mul_smul_comm, smul_mul_assoc, mul_smul_comm, vecMulVec_mul_vecMulVec,
    trace_add, trace_smul, trace_vecMulVec, dotProduct_smul, smul_eq_mul] at h4
  rw [dotProduct_comm (w 0) (w 1), dotProduct_comm (w 2) (w 1), dotProduct_comm (w 2) (w 0), h0] at h4
  have hp := hF.prod
  have hg := hF.gt
  set x := w 1 ⬝ᵥ w 0
  set y := w 1 ⬝ᵥ w 2
  set z := w 0 ⬝ᵥ w 2
  set n := w 2 ⬝ᵥ w 2
  set m := w 1 ⬝ᵥ w 1
  have h3 : (l 2 - 1) * (x ^ 2 - l 2 * y ^ 2) = 0 := by
    linear_combination (l 2 / 2) * h4 + (x ^ 2 + l 2 / 2 * n ^ 2 * (1 + l 0 * l 2) + l 2 * z ^ 2) * hp
  rcases mul_eq_zero.1 h3 with h | h <;> linarith

/-- The vectors of a frame are independent. -/
theorem frame_indep {U V : Mat3} {l : Fin 3 → ℝ} {w : Fin 3 → V3} (hF : Frame U V l w) {c : Fin 3 → ℝ}
    (h : c 0 • w 0 + c 1 • w 1 + c 2 • w 2 = 0) : c = 0 := by
  obtain ⟨W', hW⟩ := hF.indep
  have h1 : (Matrix.of fun i j => w j i : Mat3) *ᵥ c = 0 := by
    rw [← h]
    ext i
    simp [mulVec, dotProduct, Fin.sum_univ_three]
    ring
  have h2 := congrArg (fun y => W' *ᵥ y) h1
  simpa [mulVec_mulVec, hW] using h2

/-- The sum of `w 0` and the image of `w 0` under the half turn. -/
noncomputable def axisVec (l : Fin 3 → ℝ) (w : Fin 3 → V3) (s : ℝ) : V3 := w 0 + (s * Real.sqrt (l 2)) • w 2

theorem axisVec_ne {U V : Mat3} {l : Fin 3 → ℝ} {w : Fin 3 → V3} (hF : Frame U V l w) (s : ℝ) :
    axisVec l w s ≠ 0 := by
  intro h
  have := frame_indep hF (c := ![1, 0, s * Real.sqrt (l 2)]) (by simpa [axisVec] using h)
  simpa using congrFun this 0

theorem axisVec_norm {U V : Mat3} {l : Fin 3 → ℝ} {w : Fin 3 → V3} (hF : Frame U V l w)
    (h0 : w 0 ⬝ᵥ w 0 = l 2 * (w 2 ⬝ᵥ w 2)) {s : ℝ} (hs : s * s = 1) :
    axisVec l w s ⬝ᵥ axisVec l w s = 2 * (w 0 ⬝ᵥ w 0 + s * Real.sqrt (l 2) * (w 2 ⬝ᵥ w 0)) := by
  have hq : Real.sqrt (l 2) * Real.sqrt (l 2) = l 2 := Real.mul_self_sqrt (by have := hF.gt; linarith)
  simp only [axisVec, add_dotProduct, dotProduct_add, smul_dotProduct, dotProduct_smul, smul_eq_mul]
  rw [dotProduct_comm (w 0) (w 2)]
  linear_combination (w 2 ⬝ᵥ w 2) * (s * s) * hq + (w 2 ⬝ᵥ w 2) * l 2 * hs - h0

/-- An axis found by the exact test carries `U` to `V`. -/
theorem axis_works {U V : Mat3} (hU : IsSPD U) (hV : IsSPD V) {l : Fin 3 → ℝ} {w : Fin 3 → V3}
    (hF : Frame U V l w) (h0 : w 0 ⬝ᵥ w 0 = l 2 * (w 2 ⬝ᵥ w 2)) {s : ℝ} (hs : s * s = 1)
    (ht : s * Real.sqrt (l 2) * (w 1 ⬝ᵥ w 2) + w 1 ⬝ᵥ w 0 = 0) {e : V3} {r : ℝ} (hr : 0 < r)
    (he : e ⬝ᵥ e = 1) (hp : axisVec l w s = r • e) : IsTwinAxis U V e := by
  refine ⟨he, ?_⟩
  have hl2 : 0 < l 2 := by have := hF.gt; linarith
  have hq : Real.sqrt (l 2) * Real.sqrt (l 2) = l 2 := Real.mul_self_sqrt hl2.le
  have hq0 : Real.sqrt (l 2) ≠ 0 := (Real.sqrt_pos.2 hl2).ne'
  set q := Real.sqrt (l 2) with hqdef
  have hn := axisVec_norm hF h0 hs
  rw [← hqdef] at hn
  have hrr : axisVec l w s ⬝ᵥ axisVec l w s = r * r := by
    rw [hp, smul_dotProduct, dotProduct_smul, he]; simp
  have hpe : ∀ x, e ⬝ᵥ x = r⁻¹ * (axisVec l w s ⬝ᵥ x) := by
    intro x
    rw [hp, smul_dotProduct, smul_eq_mul, ← mul_assoc, inv_mul_cancel₀ hr.ne', one_mul]
  have hturn : ∀ x, halfTurn e *ᵥ x = (2 * (axisVec l w s ⬝ᵥ x) / (r * r)) • axisVec l w s - x := by
    intro x
    rw [halfTurn_mulVec, hpe, hp, smul_smul]
    congr 2
    field_simp
  have d0 : axisVec l w s ⬝ᵥ w 0 = r * r / 2 := by
    rw [← hrr, hn]
    simp only [axisVec, add_dotProduct, smul_dotProduct, smul_eq_mul]
    ring
  have d2 : axisVec l w s ⬝ᵥ ((s * q) • w 2) = r * r / 2 := by
    have : axisVec l w s ⬝ᵥ axisVec l w s = axisVec l w s ⬝ᵥ w 0 + axisVec l w s ⬝ᵥ ((s * q) • w 2) := by
      conv_lhs => rw [show axisVec l w s ⬝ᵥ axisVec l w s = axisVec l w s ⬝ᵥ (w 0 + (s * q) • w 2) from rfl]
      rw [dotProduct_add]
    rw [hrr, d0] at this
    linarith
  have d1 : axisVec l w s ⬝ᵥ w 1 = 0 := by
    simp only [axisVec, add_dotProduct, smul_dotProduct, smul_eq_mul]
    rw [dotProduct_comm (w 0), dotProduct_comm (w 2)]
    linarith
  have hrr0 : r * r ≠ 0 := (mul_pos hr hr).ne'
  have hc : 2 * (r * r / 2) / (r * r) = 1 := by field_simp
  have e0 : halfTurn e *ᵥ w 0 = (s * q) • w 2 := by
    rw [hturn, d0, hc, one_smul]
    simp [axisVec, ← hqdef]
  have e1 : halfTurn e *ᵥ w 1 = -w 1 := by
    rw [hturn, d1]; simp
  have e2 : halfTurn e *ᵥ w 2 = (s * q)⁻¹ • w 0 := by
    have hsq : s * q ≠ 0 := mul_ne_zero (by rintro rfl; simp at hs) hq0
    have h := hturn ((s * q) • w 2)
    rw [d2, hc, one_smul, mulVec_smul] at h
    have h' : (s * q) • halfTurn e *ᵥ w 2 = w 0 := by rw [h]; simp [axisVec, ← hqdef]
    rw [← h', smul_smul, inv_mul_cancel₀ hsq, one_smul]
  have hconj : ∀ x : V3, halfTurn e * vecMulVec x x * halfTurn e =
      vecMulVec (halfTurn e *ᵥ x) (halfTurn e *ᵥ x) := by
    intro x
    rw [mul_vecMulVec, vecMulVec_mul, ← mulVec_transpose, halfTurn_symm]
  have hl0 : (s * q)⁻¹ * (s * q)⁻¹ = l 0 := by
    have : (s * q) * (s * q) = l 2 := by linear_combination (q * q) * hs + hq
    rw [← mul_inv, this]
    exact (eq_inv_of_mul_eq_one_left hF.prod).symm
  have hsq : halfTurn e * (U * U) * halfTurn e = V * V := by
    rw [hF.sqU, hF.sqV, three_sum, three_sum, mul_add, mul_add, add_mul, add_mul, hconj, hconj, hconj, e0, e1, e2,
      hF.one, one_smul, neg_vecMulVec, vecMulVec_neg, neg_neg, smul_vecMulVec, vecMulVec_smul, smul_smul,
      smul_vecMulVec, vecMulVec_smul, smul_smul, hl0]
    have : s * q * (s * q) = l 2 := by linear_combination (q * q) * hs + hq
    rw [this]
    abel
  refine spd_sq_inj (conj_spd hU ?_) hV ?_
  · rw [halfTurn_symm]; exact halfTurn_sq he
  · rw [halfTurn_symm, ← hsq]
    calc halfTurn e * U * halfTurn e * (halfTurn e * U * halfTurn e) =
        halfTurn e * U * (halfTurn e * halfTurn e) * U * halfTurn e := by simp only [Matrix.mul_assoc]
      _ = _ := by rw [halfTurn_sq he, Matrix.mul_one]; simp only [Matrix.mul_assoc]

/-- Every axis of a half turn carrying `U` to `V` is one of the two candidates. -/
theorem axis_complete {U V : Mat3} {l : Fin 3 → ℝ} {w : Fin 3 → V3} (hF : Frame U V l w) {e : V3}
    (hax : IsTwinAxis U V e) : ∃ s : ℝ, (s = 1 ∨ s = -1) ∧
      s * Real.sqrt (l 2) * (w 1 ⬝ᵥ w 2) + w 1 ⬝ᵥ w 0 = 0 ∧ axisVec l w s = (2 * (e ⬝ᵥ w 0)) • e := by
  obtain ⟨he, hUV⟩ := hax
  rw [halfTurn_symm] at hUV
  have hl2 : 0 < l 2 := by have := hF.gt; linarith
  have hl0 : l 0 ≠ 0 := fun h => by have := hF.prod; rw [h, zero_mul] at this; exact zero_ne_one this
  have hq : Real.sqrt (l 2) * Real.sqrt (l 2) = l 2 := Real.mul_self_sqrt hl2.le
  set R := halfTurn e with hR
  have hRR : R * R = 1 := halfTurn_sq he
  have hRs : Rᵀ = R := halfTurn_symm e
  obtain ⟨W', hW⟩ := hF.indep
  set W : Mat3 := Matrix.of fun i j => w j i with hWdef
  have hW' : W * W' = 1 := mul_eq_one_comm.1 hW
  have hcolW : ∀ j, W.col j = w j := fun j => rfl
  have hUU : U * U = W * Wᵀ := by
    rw [hF.sqU]
    ext i j
    rw [Matrix.sum_apply, Matrix.mul_apply]
    rfl
  have hVV : V * V = W * diagonal l * Wᵀ := by
    rw [hF.sqV]
    ext i j
    rw [Matrix.sum_apply, Matrix.mul_apply]
    refine Finset.sum_congr rfl fun k _ => ?_
    rw [mul_diagonal]
    simp [hWdef, vecMulVec_apply]
    ring
  have hRUR : R * (U * U) * R = V * V := by
    rw [← hUV]
    calc R * (U * U) * R = R * U * (R * R) * U * R := by rw [hRR, Matrix.mul_one]; simp only [Matrix.mul_assoc]
      _ = _ := by simp only [Matrix.mul_assoc]
  set T := W' * R * W with hT
  have hWT : W * T = R * W := by rw [hT, ← Matrix.mul_assoc, ← Matrix.mul_assoc, hW', Matrix.one_mul]
  have hTT : T * T = 1 := by
    calc T * T = W' * R * (W * W') * R * W := by rw [hT]; simp only [Matrix.mul_assoc]
      _ = W' * (R * R) * W := by rw [hW', Matrix.mul_one]; simp only [Matrix.mul_assoc]
      _ = 1 := by rw [hRR, Matrix.mul_one, hW]
  have hWt : Wᵀ * W'ᵀ = 1 := by rw [← transpose_mul, hW, transpose_one]
  have hTL : T * Tᵀ = diagonal l := by
    have h1 : W * (T * Tᵀ) * Wᵀ = W * diagonal l * Wᵀ := by
      rw [← hVV, ← hRUR, hUU]
      calc W * (T * Tᵀ) * Wᵀ = (W * T) * (W * T)ᵀ := by rw [transpose_mul W T]; simp only [Matrix.mul_assoc]
        _ = _ := by rw [hWT, transpose_mul, hRs]; simp only [Matrix.mul_assoc]
    calc T * Tᵀ = (W' * W) * (T * Tᵀ) * (Wᵀ * W'ᵀ) := by rw [hW, hWt, Matrix.one_mul, Matrix.mul_one]
      _ = W' * (W * (T * Tᵀ) * Wᵀ) * W'ᵀ := by simp only [Matrix.mul_assoc]
      _ = (W' * W) * diagonal l * (Wᵀ * W'ᵀ) := by rw [h1]; simp only [Matrix.mul_assoc]
      _ = diagonal l := by rw [hW, hWt, Matrix.one_mul, Matrix.mul_one]
  have hTt : Tᵀ = T * diagonal l := by
    rw [← hTL, ← Matrix.mul_assoc, hTT, Matrix.one_mul]
  have hent : ∀ i j, T i j = T j i * l i := by
    intro i j
    have := congrFun (congrFun hTt j) i
    rw [transpose_apply, mul_diagonal] at this
    exact this
  have hz : ∀ i j, l i * l j ≠ 1 → T i j = 0 := by
    intro i j hij
    have h1 := hent i j
    rw [hent j i] at h1
    have h2 : T i j * (1 - l i * l j) = 0 := by linear_combination h1
    rcases mul_eq_zero.1 h2 with h | h
    · exact h
    · exact absurd (by linarith) hij
  have hg := hF.gt
  have hl0lt : l 0 < 1 := by
    by_contra hc
    push Not at hc
    have := hF.prod
    nlinarith
  have hl0pos : 0 < l 0 := by
    have := hF.prod
    by_contra hc
    push Not at hc
    nlinarith
  have z00 : T 0 0 = 0 := hz 0 0 (by nlinarith)
  have z22 : T 2 2 = 0 := hz 2 2 (by nlinarith)
  have z01 : T 0 1 = 0 := hz 0 1 (by rw [hF.one]; linarith)
  have z10 : T 1 0 = 0 := hz 1 0 (by rw [hF.one]; linarith)
  have z12 : T 1 2 = 0 := hz 1 2 (by rw [hF.one]; linarith)
  have z21 : T 2 1 = 0 := hz 2 1 (by rw [hF.one]; linarith)
  have htr : T.trace = -1 := by
    rw [hT, Matrix.mul_assoc, trace_mul_comm, Matrix.mul_assoc, hW', Matrix.mul_one, hR, halfTurn, trace_sub,
      trace_smul, trace_vecMulVec, he, trace_one]
    norm_num
  have z11 : T 1 1 = -1 := by
    rw [trace_fin_three, z00, z22] at htr
    linarith
  have hcol : ∀ j, R *ᵥ w j = T 0 j • w 0 + T 1 j • w 1 + T 2 j • w 2 := by
    intro j
    ext i
    have := congrFun (congrFun hWT i) j
    rw [Matrix.mul_apply, Matrix.mul_apply, Fin.sum_univ_three] at this
    simp only [mulVec, dotProduct, Pi.add_apply, Pi.smul_apply, smul_eq_mul]
    rw [hWdef] at this
    simp only [Matrix.of_apply] at this
    rw [← this]
    ring
  have c0 : R *ᵥ w 0 = T 2 0 • w 2 := by rw [hcol, z00, z10]; simp
  have c1 : R *ᵥ w 1 = -w 1 := by rw [hcol, z01, z11, z21]; simp
  -- the coefficient
  have hT20 : T 2 0 * T 2 0 = l 2 := by
    have := congrFun (congrFun hTL 2) 2
    rw [Matrix.mul_apply, Fin.sum_univ_three, diagonal_apply_eq] at this
    simp only [transpose_apply, z21, z22] at this
    linarith
  have hs : ∃ s : ℝ, (s = 1 ∨ s = -1) ∧ T 2 0 = s * Real.sqrt (l 2) := by
    have : (T 2 0 - Real.sqrt (l 2)) * (T 2 0 + Real.sqrt (l 2)) = 0 := by linear_combination hT20 - hq
    rcases mul_eq_zero.1 this with h | h
    · exact ⟨1, .inl rfl, by linarith⟩
    · exact ⟨-1, .inr rfl, by linarith⟩
  obtain ⟨s, hs1, hs2⟩ := hs
  have hax : axisVec l w s = (2 * (e ⬝ᵥ w 0)) • e := by
    rw [axisVec, ← hs2, ← c0, hR, halfTurn_mulVec]
    abel
  refine ⟨s, hs1, ?_, hax⟩
  have he1 : e ⬝ᵥ w 1 = 0 := by
    have h1 : (2 * (e ⬝ᵥ w 1)) • e = 0 := by
      have := c1
      rw [hR, halfTurn_mulVec] at this
      have h2 := congrArg (fun x => x + w 1) this
      simpa using h2
    have h2 := congrArg (fun x => e ⬝ᵥ x) h1
    simp only [dotProduct_smul, he, smul_eq_mul, dotProduct_zero] at h2
    linarith
  have h3 : axisVec l w s ⬝ᵥ w 1 = 0 := by rw [hax, smul_dotProduct, he1, smul_zero]
  simp only [axisVec, add_dotProduct, smul_dotProduct, smul_eq_mul] at h3
  rw [dotProduct_comm (w 0), dotProduct_comm (w 2)] at h3
  linarith

end Verif.Lemmas
