import Mathlib.Tactic.LinearCombination
import Mathlib.Tactic.FinCases
import Mathlib.LinearAlgebra.Matrix.DotProduct
import Mathlib.Tactic.Linarith
import Mathlib.LinearAlgebra.Matrix.NonsingularInverse
import Verif.Model.Rotation
import Verif.Spec.Rotation

/-!
# Lemmas on rotations: the Rodrigues matrix and the model of `rotation`
-/

namespace Verif.Lemmas

open Matrix Verif.Model Verif.Spec

theorem vnorm_eq_zero {n : ℕ} (v : Fin n → ℝ) : vnorm v = 0 ↔ v = 0 := by
  unfold vnorm
  have : 0 ≤ v ⬝ᵥ v := Finset.sum_nonneg fun i _ => mul_self_nonneg (v i)
  rw [Real.sqrt_eq_zero this]
  exact dotProduct_self_eq_zero

theorem vnorm_sq {n : ℕ} (v : Fin n → ℝ) : vnorm v * vnorm v = v ⬝ᵥ v := by
  unfold vnorm
  exact Real.mul_self_sqrt (Finset.sum_nonneg fun i _ => mul_self_nonneg (v i))

theorem vnorm_nonneg {n : ℕ} (v : Fin n → ℝ) : 0 ≤ vnorm v := Real.sqrt_nonneg _

theorem unitVec_none {n : ℕ} (v : Fin n → ℝ) : unitVec v = none ↔ v = 0 := by
  unfold unitVec
  split
  · rename_i h; simpa using (vnorm_eq_zero v).1 h
  · rename_i h; simpa using fun h' => h ((vnorm_eq_zero v).2 h')

theorem unitVec_some {n : ℕ} {v z : Fin n → ℝ} (h : unitVec v = some z) :
    z ⬝ᵥ z = 1 ∧ 0 < vnorm v ∧ v = vnorm v • z := by
  unfold unitVec at h
  split at h
  · simp at h
  · rename_i h0
    have hz : (vnorm v)⁻¹ • v = z := by simpa using h
    have hp : 0 < vnorm v := lt_of_le_of_ne (vnorm_nonneg v) (Ne.symm h0)
    subst hz
    refine ⟨?_, hp, ?_⟩
    · rw [smul_dotProduct, dotProduct_smul, ← vnorm_sq]
      simp only [smul_eq_mul]
      field_simp
    · rw [smul_smul, mul_inv_cancel₀ h0, one_smul]

theorem unitVec_isDirection {v z : Fin 3 → ℝ} (h : unitVec v = some z) : IsDirection z v :=
  ⟨(unitVec_some h).1, _, (unitVec_some h).2⟩

theorem vnorm_smul_unit {n : ℕ} {z : Fin n → ℝ} (hz : z ⬝ᵥ z = 1) {r : ℝ} (hr : 0 ≤ r) :
    vnorm (r • z) = r := by
  unfold vnorm
  rw [smul_dotProduct, dotProduct_smul, hz]
  simp only [smul_eq_mul, mul_one]
  exact Real.sqrt_mul_self hr

theorem unitVec_of_isDirection {v z : Fin 3 → ℝ} (h : IsDirection z v) : unitVec v = some z := by
  obtain ⟨hz, r, hr, rfl⟩ := h
  unfold unitVec
  rw [vnorm_smul_unit hz hr.le, if_neg hr.ne', smul_smul, inv_mul_cancel₀ hr.ne', one_smul]

/-- The matrix of `v ↦ z × v`. -/
def crossMat (z : Fin 3 → ℝ) : Matrix (Fin 3) (Fin 3) ℝ :=
  !![0, -z 2, z 1; z 2, 0, -z 0; -z 1, z 0, 0]

/-- The Rodrigues matrix. -/
noncomputable def rodrigues (z : Fin 3 → ℝ) (t : ℝ) : Matrix (Fin 3) (Fin 3) ℝ :=
  Real.cos t • (1 - outer z z) + Real.sin t • crossMat z + outer z z

theorem dot3 (a b : Fin 3 → ℝ) : a ⬝ᵥ b = a 0 * b 0 + a 1 * b 1 + a 2 * b 2 := by
  simp [dotProduct, Fin.sum_univ_three]

theorem frame_complete {z u : Fin 3 → ℝ} (hz : z ⬝ᵥ z = 1) (hu : u ⬝ᵥ u = 1) (hzu : z ⬝ᵥ u = 0) :
    outer u u + outer (z ⨯₃ u) (z ⨯₃ u) = 1 - outer z z := by
  rw [dot3] at hz hu hzu
  let M : Matrix (Fin 3) (Fin 3) ℝ := Matrix.of ![u, z ⨯₃ u, z]
  have hM : M * Mᵀ = 1 := by
    ext i j
    fin_cases i <;> fin_cases j <;>
      simp [M, Matrix.mul_apply, Fin.sum_univ_three, cross_apply] <;> 
      first
        | linear_combination hu
        | linear_combination hz
        | linear_combination hzu
        | ring1
        | skip
    linear_combination hu * (z 0 * z 0 + z 1 * z 1 + z 2 * z 2) + hz
      - hzu * (z 0 * u 0 + z 1 * u 1 + z 2 * u 2)
  have hM' := mul_eq_one_comm.1 hM
  have : outer u u + outer (z ⨯₃ u) (z ⨯₃ u) + outer z z = 1 := by
    rw [← hM']
    ext i j
    simp [M, Matrix.mul_apply, Fin.sum_univ_three, outer]
  rw [← this]
  abel

theorem frame_cross {z u : Fin 3 → ℝ} (hu : u ⬝ᵥ u = 1) (hzu : z ⬝ᵥ u = 0) :
    outer (z ⨯₃ u) u - outer u (z ⨯₃ u) = crossMat z := by
  rw [dot3] at hu hzu
  ext i j
  fin_cases i <;> fin_cases j <;> simp [outer, crossMat, cross_apply] <;>
  first
    | ring1
    | linear_combination (-z 2) * hu + u 2 * hzu
    | linear_combination (z 2) * hu - u 2 * hzu
    | linear_combination (-z 1) * hu + u 1 * hzu
    | linear_combination (z 1) * hu - u 1 * hzu
    | linear_combination (-z 0) * hu + u 0 * hzu
    | linear_combination (z 0) * hu - u 0 * hzu

theorem cross_orth (z v : Fin 3 → ℝ) : z ⬝ᵥ (z ⨯₃ v) = 0 := by
  rw [dot3]; simp [cross_apply]; ring

theorem cross_norm {z u : Fin 3 → ℝ} (hz : z ⬝ᵥ z = 1) (hzu : z ⬝ᵥ u = 0) :
    (z ⨯₃ u) ⬝ᵥ (z ⨯₃ u) = u ⬝ᵥ u := by
  rw [dot3] at *
  rw [dot3]
  simp [cross_apply]
  linear_combination hz * (u 0 * u 0 + u 1 * u 1 + u 2 * u 2)
      - hzu * (z 0 * u 0 + z 1 * u 1 + z 2 * u 2)

theorem unitVec_cross {z w u : Fin 3 → ℝ} (hz : z ⬝ᵥ z = 1) (hzw : z ⬝ᵥ w = 0)
    (h : unitVec w = some u) : unitVec (z ⨯₃ w) = some (z ⨯₃ u) := by
  unfold unitVec at *
  have : vnorm (z ⨯₃ w) = vnorm w := by unfold vnorm; rw [cross_norm hz hzw]
  rw [this]
  split at h
  · simp at h
  · rename_i h0
    rw [if_neg h0]
    have hu : (vnorm w)⁻¹ • w = u := by simpa using h
    rw [← hu, LinearMap.map_smul]

/-- The auxiliary perpendicular vector chosen by the code. -/
noncomputable def aux (z : Fin 3 → ℝ) : Fin 3 → ℝ :=
  if z ⬝ᵥ ![1, 0, 0] < 9 / 10 then z ⨯₃ ![1, 0, 0] else z ⨯₃ ![0, 1, 0]

theorem aux_orth (z : Fin 3 → ℝ) : z ⬝ᵥ aux z = 0 := by
  unfold aux; split <;> exact cross_orth _ _

theorem aux_eq_zero {z : Fin 3 → ℝ} (hz : z ⬝ᵥ z = 1) : aux z = 0 ↔ z = ![-1, 0, 0] := by
  rw [dot3] at hz
  constructor
  · intro h
    unfold aux at h
    split at h
    · rename_i hlt
      have h1 := congrFun h 1
      have h2 := congrFun h 2
      rw [dot3] at hlt
      simp [cross_apply] at h1 h2 hlt
      rw [h1, h2] at hz
      have : (z 0 - 1) * (z 0 + 1) = 0 := by linear_combination hz
      rcases mul_eq_zero.1 this with h0 | h0
      · linarith
      · ext i; fin_cases i
        · simp; linarith
        · simpa using h2
        · simpa using h1
    · rename_i hlt
      have h0 := congrFun h 0
      have h2 := congrFun h 2
      rw [dot3] at hlt
      simp [cross_apply] at h0 h2 hlt
      rw [h2] at hlt; norm_num at hlt
  · rintro rfl
    unfold aux
    rw [if_pos (by rw [dot3]; simp; norm_num)]
    ext i; fin_cases i <;> simp [cross_apply]

theorem rotation_eq {a z : Fin 3 → ℝ} (h : IsDirection z a) (hne : z ≠ ![-1, 0, 0]) (angle : ℝ)
    (deg : Bool) : rotation angle a deg = some (rodrigues z (angleOf deg angle)) := by
  have hz := h.1
  have hw : aux z ≠ 0 := fun h' => hne ((aux_eq_zero hz).1 h')
  obtain ⟨u, hu⟩ : ∃ u, unitVec (aux z) = some u := by
    rcases hn : unitVec (aux z) with _ | u
    · exact absurd ((unitVec_none _).1 hn) hw
    · exact ⟨u, rfl⟩
  have hzw := aux_orth z
  obtain ⟨hu1, hpos, heq⟩ := unitVec_some hu
  have hzu : z ⬝ᵥ u = 0 := by
    rw [heq, dotProduct_smul, smul_eq_mul] at hzw
    exact (mul_eq_zero.1 hzw).resolve_left hpos.ne'
  have hv := unitVec_cross hz hzw hu
  unfold rotation
  rw [unitVec_of_isDirection h]
  simp only
  change (match unitVec (aux z), unitVec (z ⨯₃ aux z) with
    | some z1, some z2 => _
    | _, _ => _) = _
  rw [hu, hv]
  simp only [rodrigues]
  rw [frame_complete hz hu1 hzu, frame_cross hu1 hzu]

theorem rotation_neg_e1 {a : Fin 3 → ℝ} (h : IsDirection ![-1, 0, 0] a) (angle : ℝ) (deg : Bool) :
    rotation angle a deg = none := by
  unfold rotation
  rw [unitVec_of_isDirection h]
  simp only
  have : unitVec (aux ![-1, 0, 0]) = none := (unitVec_none _).2 ((aux_eq_zero h.1).2 rfl)
  change (match unitVec (aux ![-1, 0, 0]), unitVec (_ ⨯₃ aux ![-1, 0, 0]) with
    | some z1, some z2 => _
    | _, _ => _) = _
  rw [this]

theorem rotation_zero (angle : ℝ) (deg : Bool) : rotation angle 0 deg = none := by
  unfold rotation
  rw [(unitVec_none _).2 rfl]

theorem exists_direction {a : Fin 3 → ℝ} (h : a ≠ 0) : ∃ z, IsDirection z a := by
  rcases hn : unitVec a with _ | z
  · exact absurd ((unitVec_none _).1 hn) h
  · exact ⟨z, unitVec_isDirection hn⟩

theorem rodrigues_mul {z : Fin 3 → ℝ} (hz : z ⬝ᵥ z = 1) (s t : ℝ) :
    rodrigues z s * rodrigues z t = rodrigues z (s + t) := by
  rw [dot3] at hz
  unfold rodrigues
  rw [Real.cos_add, Real.sin_add]
  have h1 : outer z z * outer z z = outer z z := by
    ext i j
    simp only [Matrix.mul_apply, Fin.sum_univ_three, outer]
    linear_combination z i * z j * hz
  have h2 : outer z z * crossMat z = 0 := by
    ext i j
    fin_cases j <;> simp [Matrix.mul_apply, Fin.sum_univ_three, outer, crossMat] <;> ring
  have h3 : crossMat z * outer z z = 0 := by
    ext i j
    fin_cases i <;> simp [Matrix.mul_apply, Fin.sum_univ_three, outer, crossMat] <;> ring
  have h4 : crossMat z * crossMat z = outer z z - 1 := by
    ext i j
    fin_cases i <;> fin_cases j <;>
      simp [Matrix.mul_apply, Fin.sum_univ_three, outer, crossMat] <;>
      first | ring1 | linear_combination -hz
  simp only [add_mul, mul_add, smul_mul_assoc, mul_smul_comm, sub_mul, mul_sub, h1, h2, h3, h4,
    one_mul, mul_one]
  module

theorem rodrigues_zero (z : Fin 3 → ℝ) : rodrigues z 0 = 1 := by
  simp [rodrigues]

theorem rodrigues_two_pi (z : Fin 3 → ℝ) : rodrigues z (2 * Real.pi) = 1 := by
  simp [rodrigues]

theorem rodrigues_transpose (z : Fin 3 → ℝ) (t : ℝ) : (rodrigues z t)ᵀ = rodrigues z (-t) := by
  ext i j
  fin_cases i <;> fin_cases j <;> simp [rodrigues, outer, crossMat] <;> ring

theorem rodrigues_det {z : Fin 3 → ℝ} (hz : z ⬝ᵥ z = 1) (t : ℝ) : (rodrigues z t).det = 1 := by
  have h1 : rodrigues z t = rodrigues z (t / 2) * rodrigues z (t / 2) := by
    rw [rodrigues_mul hz]; congr 1; ring
  have h2 : (rodrigues z (t / 2)).det * (rodrigues z (t / 2)).det = 1 := by
    have : (rodrigues z (t / 2))ᵀ * rodrigues z (t / 2) = 1 := by
      rw [rodrigues_transpose, rodrigues_mul hz, neg_add_cancel, rodrigues_zero]
    rw [← Matrix.det_one (n := Fin 3) (R := ℝ), ← this, Matrix.det_mul, Matrix.det_transpose]
  rw [h1, Matrix.det_mul, h2]

theorem rodrigues_fix {z : Fin 3 → ℝ} (hz : z ⬝ᵥ z = 1) (t : ℝ) : rodrigues z t *ᵥ z = z := by
  rw [dot3] at hz
  ext i
  fin_cases i <;> simp [rodrigues, outer, crossMat, Matrix.mulVec, dot3, Matrix.one_apply]
  · linear_combination (1 - Real.cos t) * z 0 * hz
  · linear_combination (1 - Real.cos t) * z 1 * hz
  · linear_combination (1 - Real.cos t) * z 2 * hz

theorem rodrigues_turn {z v : Fin 3 → ℝ} (hzv : z ⬝ᵥ v = 0) (t : ℝ) :
    rodrigues z t *ᵥ v = Real.cos t • v + Real.sin t • (z ⨯₃ v) := by
  rw [dot3] at hzv
  ext i
  fin_cases i <;>
    simp [rodrigues, outer, crossMat, Matrix.mulVec, dot3, Matrix.one_apply, cross_apply]
  · linear_combination (1 - Real.cos t) * z 0 * hzv
  · linear_combination (1 - Real.cos t) * z 1 * hzv
  · linear_combination (1 - Real.cos t) * z 2 * hzv

theorem rodrigues_spec {z : Fin 3 → ℝ} (hz : z ⬝ᵥ z = 1) (t : ℝ) :
    IsRotationAbout (rodrigues z t) z t where
  rot := ⟨by rw [rodrigues_transpose, rodrigues_mul hz, add_neg_cancel, rodrigues_zero],
    rodrigues_det hz t⟩
  fixes := rodrigues_fix hz t
  turns := fun _ hv => rodrigues_turn hv t

/-- The specification determines the matrix. -/
theorem isRotationAbout_unique {z : Fin 3 → ℝ} (hz : z ⬝ᵥ z = 1) {t : ℝ}
    {R : Matrix (Fin 3) (Fin 3) ℝ} (h : IsRotationAbout R z t) : R = rodrigues z t := by
  have key : ∀ v, R *ᵥ v = rodrigues z t *ᵥ v := by
    intro v
    have hp : z ⬝ᵥ (v - (z ⬝ᵥ v) • z) = 0 := by
      rw [dotProduct_sub, dotProduct_smul, hz]; simp
    have hv : v = (v - (z ⬝ᵥ v) • z) + (z ⬝ᵥ v) • z := by simp
    rw [hv, Matrix.mulVec_add, Matrix.mulVec_add, Matrix.mulVec_smul, Matrix.mulVec_smul, h.fixes,
      rodrigues_fix hz, h.turns _ hp, rodrigues_turn hp]
  ext i j
  have := congrFun (key (Pi.single j 1)) i
  simpa using this

theorem rodrigues_pow {z : Fin 3 → ℝ} (hz : z ⬝ᵥ z = 1) (t : ℝ) (n : ℕ) :
    rodrigues z t ^ n = rodrigues z (n * t) := by
  induction n with
  | zero => simp [rodrigues_zero]
  | succ n ih => rw [pow_succ, ih, rodrigues_mul hz]; congr 1; push_cast; ring

end Verif.Lemmas
