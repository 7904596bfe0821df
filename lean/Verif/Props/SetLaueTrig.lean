import Verif.Props.SetLaue

/-!
# C76 for the monoclinic and triclinic types
-/

namespace Verif.Props

open Matrix Verif.Spec Verif.Model Verif.Lemmas

theorem integral_of {E Q : Matrix (Fin 3) (Fin 3) ℝ} (hE : E.det ≠ 0) {M : Matrix (Fin 3) (Fin 3) ℤ}
    (h : Q * E = E * toR M) : IsIntegral (E⁻¹ * (Q * E)) := by
  rw [h, ← Matrix.mul_assoc, Matrix.nonsing_inv_mul _ (isUnit_det_of_ne hE), Matrix.one_mul]
  exact isIntegral_toR M

/-- The angles of 89, 88 and 92 degrees. -/
theorem angles : (174 / 10000 < Real.cos (radians 89) ∧ Real.cos (radians 89) < 175 / 10000) ∧
    (999 / 1000 < Real.sin (radians 89) ∧ Real.sin (radians 89) ≤ 1) ∧
    (348 / 10000 < Real.cos (radians 88) ∧ Real.cos (radians 88) < 350 / 10000) ∧
    Real.cos (radians 92) = -Real.cos (radians 88) ∧
    (999 / 1000 < Real.sin (radians 92) ∧ Real.sin (radians 92) ≤ 1) := by
  have p1 := Real.pi_gt_d4
  have p2 := Real.pi_lt_d4
  have e1 : Real.cos (radians 89) = Real.sin (Real.pi / 180) := by
    rw [← Real.cos_pi_div_two_sub]; congr 1; unfold radians; ring
  have e2 : Real.cos (radians 88) = Real.sin (Real.pi / 90) := by
    rw [← Real.cos_pi_div_two_sub]; congr 1; unfold radians; ring
  have e3 : Real.cos (radians 92) = -Real.cos (radians 88) := by
    rw [← Real.cos_pi_sub]; congr 1; unfold radians; ring
  have b1 : ∀ x : ℝ, 0 < x → x < 1 / 20 → x - x / 1000 < Real.sin x ∧ Real.sin x < x := by
    intro x h0 h1
    have h := Real.sin_gt_sub_cube h0
    have h2 := Real.sin_lt h0
    refine ⟨?_, h2⟩
    have : x ^ 3 / 6 < x / 1000 := by
      have : x ^ 2 < 1 / 400 := by nlinarith
      nlinarith
    linarith
  obtain ⟨a1, a2⟩ := b1 (Real.pi / 180) (by linarith) (by linarith)
  obtain ⟨a3, a4⟩ := b1 (Real.pi / 90) (by linarith) (by linarith)
  have pos89 : 0 < Real.sin (radians 89) :=
    Real.sin_pos_of_pos_of_lt_pi (by unfold radians; linarith) (by unfold radians; linarith)
  have pos92 : 0 < Real.sin (radians 92) :=
    Real.sin_pos_of_pos_of_lt_pi (by unfold radians; linarith) (by unfold radians; linarith)
  have q1 := Real.sin_sq_add_cos_sq (radians 89)
  have q2 := Real.sin_sq_add_cos_sq (radians 92)
  have c1 : 174 / 10000 < Real.cos (radians 89) ∧ Real.cos (radians 89) < 175 / 10000 := by
    rw [e1]; constructor <;> linarith
  have c2 : 348 / 10000 < Real.cos (radians 88) ∧ Real.cos (radians 88) < 350 / 10000 := by
    rw [e2]; constructor <;> linarith
  refine ⟨c1, ⟨?_, Real.sin_le_one _⟩, c2, e3, ?_, Real.sin_le_one _⟩
  · nlinarith
  · rw [e3] at q2
    nlinarith

/-- The base of the primitive monoclinic lattice of the table, `κ` and `σ` being the cosine and the sine
of its angle. -/
noncomputable def monoBase (κ σ : ℝ) : M3 := !![141 / 100, 0, 2 * κ; 0, 142 / 100, 0; 0, 0, 2 * σ]

noncomputable def monoInv (κ σ : ℝ) : M3 :=
  !![100 / 141, 0, -(100 / 141) * (κ * σ⁻¹); 0, 100 / 142, 0; 0, 0, σ⁻¹ / 2]

/-- The base of the base-centred monoclinic lattice of the table. -/
noncomputable def monoCBase (κ σ : ℝ) : M3 :=
  !![141 / 200, -(141 / 200), 2 * κ; 142 / 200, 142 / 200, 0; 0, 0, 2 * σ]

noncomputable def monoCInv (κ σ : ℝ) : M3 :=
  !![100 / 141, 100 / 142, -(100 / 141) * (κ * σ⁻¹); -(100 / 141), 100 / 142, 100 / 141 * (κ * σ⁻¹);
    0, 0, σ⁻¹ / 2]

theorem det_of_left_inv {E F : M3} (h : F * E = 1) : E.det ≠ 0 := by
  intro h0
  have := congrArg Matrix.det h
  rw [Matrix.det_mul, h0, mul_zero, Matrix.det_one] at this
  exact zero_ne_one this

theorem mono_left {κ σ : ℝ} (hσ : σ ≠ 0) : monoInv κ σ * monoBase κ σ = 1 := by
  ext i j
  fin_cases i <;> fin_cases j <;>
    simp [monoInv, monoBase, Matrix.mul_apply, Fin.sum_univ_three] <;> field_simp <;> norm_num

theorem monoC_left {κ σ : ℝ} (hσ : σ ≠ 0) : monoCInv κ σ * monoCBase κ σ = 1 := by
  ext i j
  fin_cases i <;> fin_cases j <;>
    simp [monoCInv, monoCBase, Matrix.mul_apply, Fin.sum_univ_three] <;> field_simp <;> norm_num

/-- The members of the cubic table, sorted by what tells them from the monoclinic group. -/
theorem mono_cases : ∀ Q ∈ cubicLaue, keepOf .monoclinic Q = false →
    (Q 2 0 = 1 ∨ Q 2 0 = -1) ∧ Q 2 1 = 0 ∨
    Q 2 0 = 0 ∧ (Q 2 1 = 1 ∨ Q 2 1 = -1) ∨
    Q 2 0 = 0 ∧ Q 2 1 = 0 ∧ Q 0 2 = 0 ∧ Q 1 2 = 0 ∧ Q 0 0 = 0 ∧ Q 1 1 = 0 ∧ (Q 1 0 = 1 ∨ Q 1 0 = -1) ∧
      (Q 0 1 = Q 1 0 ∨ Q 0 1 = -Q 1 0) ∨
    Q 2 0 = 0 ∧ Q 2 1 = 0 ∧ Q 0 2 = 0 ∧ Q 1 2 = 0 ∧ Q 1 0 = 0 ∧ Q 0 1 = 0 ∧ (Q 0 0 = 1 ∨ Q 0 0 = -1) ∧
      Q 2 2 = -Q 0 0 := by
  unfold cubicLaue; decide +kernel

theorem mono_far {κ σ : ℝ} (hκ : 174 / 10000 < κ ∧ κ < 175 / 10000) (hσ : 999 / 1000 < σ ∧ σ ≤ 1) :
    ∀ Q ∈ cubicLaue, keepOf .monoclinic Q = false →
      ∃ i j, FarInt (((monoBase κ σ)⁻¹ * (toR Q * monoBase κ σ)) i j) := by
  intro Q hQ hk
  have h0 : σ ≠ 0 := by linarith
  rw [Matrix.inv_eq_left_inv (mono_left h0)]
  have hi : σ * σ⁻¹ = 1 := mul_inv_cancel₀ h0
  have hi1 : 1 ≤ σ⁻¹ ∧ σ⁻¹ < 1002 / 1000 := by
    constructor
    · by_contra hc; push Not at hc; nlinarith
    · by_contra hc; push Not at hc; nlinarith
  rcases mono_cases Q hQ hk with ⟨h, -⟩ | ⟨h, h'⟩ | ⟨h20, h21, h02, h12, h00, h11, h10, -⟩ |
    ⟨h20, h21, h02, h12, h10, h01, h00, h22⟩
  · refine ⟨2, 0, ?_⟩
    rcases h with h | h
    · refine ⟨0, ?_, ?_, ?_⟩ <;>
        simp [monoInv, monoBase, toR, Matrix.mul_apply, Fin.sum_univ_three, h] <;> linarith
    · refine ⟨-1, ?_, ?_, ?_⟩ <;>
        simp [monoInv, monoBase, toR, Matrix.mul_apply, Fin.sum_univ_three, h] <;> linarith
  · refine ⟨2, 1, ?_⟩
    rcases h' with h' | h'
    · refine ⟨0, ?_, ?_, ?_⟩ <;>
        simp [monoInv, monoBase, toR, Matrix.mul_apply, Fin.sum_univ_three, h, h'] <;> linarith
    · refine ⟨-1, ?_, ?_, ?_⟩ <;>
        simp [monoInv, monoBase, toR, Matrix.mul_apply, Fin.sum_univ_three, h, h'] <;> linarith
  · refine ⟨1, 0, ?_⟩
    rcases h10 with h | h
    · refine ⟨0, ?_, ?_, ?_⟩ <;>
        simp [monoInv, monoBase, toR, Matrix.mul_apply, Fin.sum_univ_three, h] <;> norm_num
    · refine ⟨-1, ?_, ?_, ?_⟩ <;>
        simp [monoInv, monoBase, toR, Matrix.mul_apply, Fin.sum_univ_three, h] <;> norm_num
  · refine ⟨0, 2, ?_⟩
    have e : (monoInv κ σ * (toR Q * monoBase κ σ)) 0 2 = 400 / 141 * κ * (Q 0 0 : ℝ) := by
      simp [monoInv, monoBase, toR, Matrix.mul_apply, Fin.sum_univ_three, h20, h21, h02, h12, h10, h01,
        h22]
      linear_combination (200 / 141 * κ * (Q 0 0 : ℝ)) * hi
    rw [e]
    rcases h00 with h | h
    · rw [h]
      refine ⟨0, ?_, ?_, ?_⟩ <;> norm_num <;> linarith
    · rw [h]
      refine ⟨-1, ?_, ?_, ?_⟩ <;> norm_num <;> linarith

theorem monoC_far {κ σ : ℝ} (hκ : 174 / 10000 < κ ∧ κ < 175 / 10000) (hσ : 999 / 1000 < σ ∧ σ ≤ 1) :
    ∀ Q ∈ cubicLaue, keepOf .monoclinic Q = false →
      ∃ i j, FarInt (((monoCBase κ σ)⁻¹ * (toR Q * monoCBase κ σ)) i j) := by
  intro Q hQ hk
  have h0 : σ ≠ 0 := by linarith
  rw [Matrix.inv_eq_left_inv (monoC_left h0)]
  have hi : σ * σ⁻¹ = 1 := mul_inv_cancel₀ h0
  have hi1 : 1 ≤ σ⁻¹ ∧ σ⁻¹ < 1002 / 1000 := by
    constructor
    · by_contra hc; push Not at hc; nlinarith
    · by_contra hc; push Not at hc; nlinarith
  rcases mono_cases Q hQ hk with ⟨h, h'⟩ | ⟨h, h'⟩ | ⟨h20, h21, h02, h12, h00, h11, h10, h01⟩ |
    ⟨h20, h21, h02, h12, h10, h01, h00, h22⟩
  · refine ⟨2, 0, ?_⟩
    rcases h with h | h
    · refine ⟨0, ?_, ?_, ?_⟩ <;>
        simp [monoCInv, monoCBase, toR, Matrix.mul_apply, Fin.sum_univ_three, h, h'] <;> linarith
    · refine ⟨-1, ?_, ?_, ?_⟩ <;>
        simp [monoCInv, monoCBase, toR, Matrix.mul_apply, Fin.sum_univ_three, h, h'] <;> linarith
  · refine ⟨2, 0, ?_⟩
    rcases h' with h' | h'
    · refine ⟨0, ?_, ?_, ?_⟩ <;>
        simp [monoCInv, monoCBase, toR, Matrix.mul_apply, Fin.sum_univ_three, h, h'] <;> linarith
    · refine ⟨-1, ?_, ?_, ?_⟩ <;>
        simp [monoCInv, monoCBase, toR, Matrix.mul_apply, Fin.sum_univ_three, h, h'] <;> linarith
  · rcases h01 with h01 | h01
    · refine ⟨1, 0, ?_⟩
      rcases h10 with h | h
      · refine ⟨-1, ?_, ?_, ?_⟩ <;>
          simp [monoCInv, monoCBase, toR, Matrix.mul_apply, Fin.sum_univ_three, h, h00, h11, h20, h21,
            h01] <;> norm_num
      · refine ⟨0, ?_, ?_, ?_⟩ <;>
          simp [monoCInv, monoCBase, toR, Matrix.mul_apply, Fin.sum_univ_three, h, h00, h11, h20, h21,
            h01] <;> norm_num
    · refine ⟨0, 0, ?_⟩
      rcases h10 with h | h
      · refine ⟨-1, ?_, ?_, ?_⟩ <;>
          simp [monoCInv, monoCBase, toR, Matrix.mul_apply, Fin.sum_univ_three, h, h00, h11, h20, h21,
            h01] <;> norm_num
      · refine ⟨0, ?_, ?_, ?_⟩ <;>
          simp [monoCInv, monoCBase, toR, Matrix.mul_apply, Fin.sum_univ_three, h, h00, h11, h20, h21,
            h01] <;> norm_num
  · refine ⟨0, 2, ?_⟩
    have e : (monoCInv κ σ * (toR Q * monoCBase κ σ)) 0 2 = 400 / 141 * κ * (Q 0 0 : ℝ) := by
      simp [monoCInv, monoCBase, toR, Matrix.mul_apply, Fin.sum_univ_three, h20, h21, h02, h12, h10, h01,
        h22]
      linear_combination (200 / 141 * κ * (Q 0 0 : ℝ)) * hi
    rw [e]
    rcases h00 with h | h
    · rw [h]
      refine ⟨0, ?_, ?_, ?_⟩ <;> norm_num <;> linarith
    · rw [h]
      refine ⟨-1, ?_, ?_, ?_⟩ <;> norm_num <;> linarith

theorem keep_mono {Q : Matrix (Fin 3) (Fin 3) ℤ} (h : keepOf .monoclinic Q = true) :
    Q = !![1, 0, 0; 0, 1, 0; 0, 0, 1] ∨ Q = !![-1, 0, 0; 0, 1, 0; 0, 0, -1] := of_decide_eq_true h

/-- The base of the triclinic lattice of the table; `g`, `s` are the cosine and the sine of the third
angle, `h` the cosine of the second, and `y`, `z` belong to the third vector. -/
noncomputable def triclBase (g s h y z : ℝ) : M3 :=
  !![141 / 100, 142 / 100 * g, 2 * h; 0, 142 / 100 * s, 2 * y; 0, 0, 2 * z]

noncomputable def triclInv (g s h y z : ℝ) : M3 :=
  !![100 / 141, -(100 / 141) * (g * s⁻¹), 100 / 141 * (g * s⁻¹ * (y * z⁻¹)) - 100 / 141 * (h * z⁻¹);
    0, 100 / 142 * s⁻¹, -(100 / 142) * (s⁻¹ * (y * z⁻¹)); 0, 0, z⁻¹ / 2]

theorem tricl_left {g s h y z : ℝ} (hs : s ≠ 0) (hz : z ≠ 0) :
    triclInv g s h y z * triclBase g s h y z = 1 := by
  ext i j
  fin_cases i <;> fin_cases j <;>
    simp [triclInv, triclBase, Matrix.mul_apply, Fin.sum_univ_three] <;> field_simp <;> ring

/-- The members of the cubic table, sorted by what tells them from the identity. -/
theorem tricl_cases : ∀ Q ∈ cubicLaue, keepOf .triclinic Q = false →
    (Q 2 0 = 1 ∨ Q 2 0 = -1) ∨
    Q 2 0 = 0 ∧ (Q 2 1 = 1 ∨ Q 2 1 = -1) ∨
    Q 2 0 = 0 ∧ (Q 1 0 = 1 ∨ Q 1 0 = -1) ∨
    Q 2 0 = 0 ∧ Q 2 1 = 0 ∧ Q 0 2 = 0 ∧ Q 1 2 = 0 ∧ Q 1 0 = 0 ∧ Q 0 1 = 0 ∧ (Q 0 0 = 1 ∨ Q 0 0 = -1) ∧
      (Q 1 1 = -Q 0 0 ∨ (Q 1 1 = 1 ∨ Q 1 1 = -1) ∧ Q 2 2 = -Q 1 1) := by
  unfold cubicLaue; decide +kernel

theorem tricl_far {g s h y z : ℝ} (hg : -(350 / 10000) < g ∧ g < -(348 / 10000))
    (hs : 999 / 1000 < s ∧ s ≤ 1) (hy : 17 / 1000 < y ∧ y < 20 / 1000)
    (hz : 990 / 1000 < z ∧ z < 1010 / 1000) :
    ∀ Q ∈ cubicLaue, keepOf .triclinic Q = false →
      ∃ i j, FarInt (((triclBase g s h y z)⁻¹ * (toR Q * triclBase g s h y z)) i j) := by
  intro Q hQ hk
  have s0 : s ≠ 0 := by linarith
  have z0 : z ≠ 0 := by linarith
  rw [Matrix.inv_eq_left_inv (tricl_left s0 z0)]
  have hsi : s * s⁻¹ = 1 := mul_inv_cancel₀ s0
  have hzi : z * z⁻¹ = 1 := mul_inv_cancel₀ z0
  generalize hS : s⁻¹ = S at hsi
  generalize hZ : z⁻¹ = Z at hzi
  have hS1 : 1 ≤ S ∧ S < 1002 / 1000 := by
    constructor
    · by_contra hc; push Not at hc; nlinarith
    · by_contra hc; push Not at hc; nlinarith
  have hZ1 : 980 / 1000 ≤ Z ∧ Z < 1020 / 1000 := by
    constructor
    · by_contra hc; push Not at hc; nlinarith
    · by_contra hc; push Not at hc; nlinarith
  have hsZ : 970 / 1000 < s * Z ∧ s * Z < 1020 / 1000 := by constructor <;> nlinarith
  have hyS : 17 / 1000 < y * S ∧ y * S < 21 / 1000 := by constructor <;> nlinarith
  rcases tricl_cases Q hQ hk with h' | ⟨h', h''⟩ | ⟨h', h''⟩ |
    ⟨h20, h21, h02, h12, h10, h01, h00, hd⟩
  · refine ⟨2, 0, ?_⟩
    have e : (triclInv g s h y z * (toR Q * triclBase g s h y z)) 2 0 = 141 / 200 * Z * (Q 2 0 : ℝ) := by
      simp [triclInv, triclBase, toR, Matrix.mul_apply, Fin.sum_univ_three, hZ]
      ring
    rw [e]
    rcases h' with h | h
    · rw [h]; refine ⟨0, ?_, ?_, ?_⟩ <;> norm_num <;> linarith
    · rw [h]; refine ⟨-1, ?_, ?_, ?_⟩ <;> norm_num <;> linarith
  · refine ⟨2, 1, ?_⟩
    have e : (triclInv g s h y z * (toR Q * triclBase g s h y z)) 2 1 =
        142 / 200 * (s * Z) * (Q 2 1 : ℝ) := by
      simp [triclInv, triclBase, toR, Matrix.mul_apply, Fin.sum_univ_three, hZ, h']
      ring
    rw [e]
    rcases h'' with h | h
    · rw [h]; refine ⟨0, ?_, ?_, ?_⟩ <;> norm_num <;> linarith
    · rw [h]; refine ⟨-1, ?_, ?_, ?_⟩ <;> norm_num <;> linarith
  · refine ⟨1, 0, ?_⟩
    have e : (triclInv g s h y z * (toR Q * triclBase g s h y z)) 1 0 = 141 / 142 * S * (Q 1 0 : ℝ) := by
      simp [triclInv, triclBase, toR, Matrix.mul_apply, Fin.sum_univ_three, hS, h']
      ring
    rw [e]
    rcases h'' with h | h
    · rw [h]; refine ⟨0, ?_, ?_, ?_⟩ <;> norm_num <;> linarith
    · rw [h]; refine ⟨-1, ?_, ?_, ?_⟩ <;> norm_num <;> linarith
  · rcases hd with hd | ⟨h11, h22⟩
    · refine ⟨0, 1, ?_⟩
      have e : (triclInv g s h y z * (toR Q * triclBase g s h y z)) 0 1 =
          284 / 141 * g * (Q 0 0 : ℝ) := by
        simp [triclInv, triclBase, toR, Matrix.mul_apply, Fin.sum_univ_three, hS, h20, h21, h10, h01, hd]
        linear_combination (142 / 141 * g * (Q 0 0 : ℝ)) * hsi
      rw [e]
      rcases h00 with h | h
      · rw [h]; refine ⟨-1, ?_, ?_, ?_⟩ <;> norm_num <;> linarith
      · rw [h]; refine ⟨0, ?_, ?_, ?_⟩ <;> norm_num <;> linarith
    · refine ⟨1, 2, ?_⟩
      have e : (triclInv g s h y z * (toR Q * triclBase g s h y z)) 1 2 =
          400 / 142 * (y * S) * (Q 1 1 : ℝ) := by
        simp [triclInv, triclBase, toR, Matrix.mul_apply, Fin.sum_univ_three, hS, hZ, h20, h21, h10, h12,
          h22]
        linear_combination (200 / 142 * (y * S) * (Q 1 1 : ℝ)) * hzi
      rw [e]
      rcases h11 with h | h
      · rw [h]; refine ⟨0, ?_, ?_, ?_⟩ <;> norm_num <;> linarith
      · rw [h]; refine ⟨-1, ?_, ?_, ?_⟩ <;> norm_num <;> linarith

section
variable {t : Tol} (ht : t = .code ∨ t = .exact) (py : Py) (m : Mart)
include ht

theorem set_12 :
    m.setLaue t py (.int 12) = .ok ⟨m.U, (cubicLaue.filter (keepOf .monoclinic)).map toR⟩ := by
  obtain ⟨hκ, hσ, -⟩ := angles
  have h0 : Real.sin (radians 89) ≠ 0 := by linarith
  have hd := det_of_left_inv (mono_left (κ := Real.cos (radians 89)) h0)
  refine setLaue_of (x := .float [141 / 100, 142 / 100, 2, 89]) (by norm_num) (by norm_num) (.inr rfl)
    (by simp [Nums.vals]) rfl (E := monoBase (Real.cos (radians 89)) (Real.sin (radians 89))) ?_ hd
    (laue_eq ht hd _ ?_ (mono_far hκ hσ) fun h => absurd h (by unfold cubicLaue; decide +kernel))
  · simp only [primBase3, getD_get, Nums.vals]
    norm_num
    ext i j
    fin_cases i <;> fin_cases j <;> simp [monoBase] <;> norm_num
  · intro Q _ hq
    rcases keep_mono hq with rfl | rfl
    · refine integral_of hd (M := !![1, 0, 0; 0, 1, 0; 0, 0, 1]) ?_
      ext i j
      fin_cases i <;> fin_cases j <;> simp [monoBase, toR, Matrix.mul_apply, Fin.sum_univ_three]
    · refine integral_of hd (M := !![-1, 0, 0; 0, 1, 0; 0, 0, -1]) ?_
      ext i j
      fin_cases i <;> fin_cases j <;> simp [monoBase, toR, Matrix.mul_apply, Fin.sum_univ_three]

theorem set_13 :
    m.setLaue t py (.int 13) = .ok ⟨m.U, (cubicLaue.filter (keepOf .monoclinic)).map toR⟩ := by
  obtain ⟨hκ, hσ, -⟩ := angles
  have h0 : Real.sin (radians 89) ≠ 0 := by linarith
  have hd := det_of_left_inv (monoC_left (κ := Real.cos (radians 89)) h0)
  refine setLaue_of (x := .float [141 / 100, 142 / 100, 2, 89]) (by norm_num) (by norm_num) (.inr rfl)
    (by simp [Nums.vals]) rfl (E := monoCBase (Real.cos (radians 89)) (Real.sin (radians 89))) ?_ hd
    (laue_eq ht hd _ ?_ (monoC_far hκ hσ) fun h => absurd h (by unfold cubicLaue; decide +kernel))
  · simp only [primBase3, getD_get, Nums.vals, npdiv, Nums.isInt]
    norm_num
    ext i j
    fin_cases i <;> fin_cases j <;> simp [monoCBase] <;> norm_num
  · intro Q _ hq
    rcases keep_mono hq with rfl | rfl
    · refine integral_of hd (M := !![1, 0, 0; 0, 1, 0; 0, 0, 1]) ?_
      ext i j
      fin_cases i <;> fin_cases j <;> simp [monoCBase, toR, Matrix.mul_apply, Fin.sum_univ_three]
    · refine integral_of hd (M := !![0, 1, 0; 1, 0, 0; 0, 0, -1]) ?_
      ext i j
      fin_cases i <;> fin_cases j <;> simp [monoCBase, toR, Matrix.mul_apply, Fin.sum_univ_three]

theorem set_14 :
    m.setLaue t py (.int 14) = .ok ⟨m.U, (cubicLaue.filter (keepOf .triclinic)).map toR⟩ := by
  obtain ⟨hκ, -, hκ2, e92, hσ⟩ := angles
  set κ := Real.cos (radians 89)
  set κ2 := Real.cos (radians 88)
  set σ := Real.sin (radians 92)
  have h0 : σ ≠ 0 := by linarith
  set w := 1 + 2 * κ * κ2 * -κ2 - κ ^ 2 - κ2 ^ 2 - (-κ2) ^ 2 with hw
  have hw1 : 995 / 1000 < w ∧ w < 1 := by constructor <;> nlinarith
  set r := Real.sqrt w with hr
  have hr0 : 0 ≤ r := Real.sqrt_nonneg w
  have hrr : r * r = w := Real.mul_self_sqrt (by linarith)
  have hr1 : 995 / 1000 < r ∧ r < 1 := by constructor <;> nlinarith
  have hi : σ * σ⁻¹ = 1 := mul_inv_cancel₀ h0
  have hi1 : 1 ≤ σ⁻¹ ∧ σ⁻¹ < 1002 / 1000 := by
    constructor
    · by_contra hc; push Not at hc; nlinarith
    · by_contra hc; push Not at hc; nlinarith
  have hz : 990 / 1000 < r * σ⁻¹ ∧ r * σ⁻¹ < 1010 / 1000 := by constructor <;> nlinarith
  have hp : 18 / 1000 < κ + κ2 * κ2 ∧ κ + κ2 * κ2 < 19 / 1000 := by constructor <;> nlinarith
  have hy : 17 / 1000 < (κ + κ2 * κ2) * σ⁻¹ ∧ (κ + κ2 * κ2) * σ⁻¹ < 20 / 1000 := by
    constructor <;> nlinarith
  have hd := det_of_left_inv (tricl_left (g := -κ2) (h := κ2) (y := (κ + κ2 * κ2) * σ⁻¹)
    (z := r * σ⁻¹) h0 (by linarith))
  refine setLaue_of (x := .float [141 / 100, 142 / 100, 2, 89, 88, 92]) (by norm_num) (by norm_num)
    (.inr rfl) (by simp [Nums.vals]) rfl
    (E := triclBase (-κ2) σ κ2 ((κ + κ2 * κ2) * σ⁻¹) (r * σ⁻¹)) ?_ hd
    (laue_eq ht hd _ ?_ (tricl_far (by constructor <;> linarith) hσ hy hz)
      fun h => absurd h (by unfold cubicLaue; decide +kernel))
  · have g0 : (Nums.float [141 / 100, 142 / 100, 2, 89, 88, 92]).get 0 = 141 / 100 := rfl
    have g1 : (Nums.float [141 / 100, 142 / 100, 2, 89, 88, 92]).get 1 = 142 / 100 := rfl
    have g2 : (Nums.float [141 / 100, 142 / 100, 2, 89, 88, 92]).get 2 = 2 := rfl
    have g3 : (Nums.float [141 / 100, 142 / 100, 2, 89, 88, 92]).get 3 = 89 := rfl
    have g4 : (Nums.float [141 / 100, 142 / 100, 2, 89, 88, 92]).get 4 = 88 := rfl
    have g5 : (Nums.float [141 / 100, 142 / 100, 2, 89, 88, 92]).get 5 = 92 := rfl
    simp only [primBase3, g0, g1, g2, g3, g4, g5, e92]
    simp only [show Real.cos (radians 89) = κ from rfl, show Real.cos (radians 88) = κ2 from rfl,
      show Real.sin (radians 92) = σ from rfl]
    rw [← hw, ← hr]
    rw [if_neg (by norm_num), if_neg (by norm_num), if_neg (by norm_num), if_neg (by norm_num),
      if_neg (by norm_num), if_neg (by norm_num), if_neg (by norm_num), if_neg (by norm_num),
      if_neg (by norm_num), if_neg (by norm_num), if_neg (by norm_num), if_neg (by norm_num),
      if_neg (by norm_num), if_neg (by
        push Not
        exact ⟨by linarith, h0⟩)]
    congr 1
    ext i j
    fin_cases i <;> fin_cases j <;> simp [triclBase] <;> ring
  · intro Q _ hq
    have hq : Q = !![1, 0, 0; 0, 1, 0; 0, 0, 1] := of_decide_eq_true hq
    subst hq
    refine integral_of hd (M := !![1, 0, 0; 0, 1, 0; 0, 0, 1]) ?_
    ext i j
    fin_cases i <;> fin_cases j <;> simp [triclBase, toR, Matrix.mul_apply, Fin.sum_univ_three]

end

end Verif.Props
