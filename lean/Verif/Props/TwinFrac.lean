import Verif.Props.TwinSolve
import Verif.Props.MatMath

/-!
# C56: volume fractions
-/

namespace Verif.Props

open Matrix Verif.Model Verif.Spec Verif.Lemmas

local notation "Mat3" => Matrix (Fin 3) (Fin 3) ℝ

theorem cofVal_eq (U : Mat3) (a n : V3) :
    cofVal U a n = (U *ᵥ a) ⬝ᵥ ((U * U - 1).adjugate)ᵀ *ᵥ n := by
  have h : bruteCof (U * U - 1) = .ok ((U * U - 1).adjugate)ᵀ := by
    rw [← signedMinors_eq]
    simp [bruteCof]
  rw [cofVal, h]

theorem mix_expand {U : Mat3} (hU : Uᵀ = U) (a n : V3) (f : ℝ) :
    (U + f • vecMulVec n a) * (U + f • vecMulVec a n) - 1 =
      (U * U - 1) + f • (vecMulVec n (U *ᵥ a) + vecMulVec (U *ᵥ a) n) + (f * f * (a ⬝ᵥ a)) • vecMulVec n n := by
  rw [add_mul, mul_add, mul_add, smul_mul_assoc, smul_mul_assoc, mul_smul_comm, mul_smul_comm, mul_vecMulVec,
    vecMulVec_mul, ← mulVec_transpose, hU, vecMulVec_mul_vecMulVec, vecMulVec_smul, smul_smul, smul_smul, smul_add]
  abel

theorem det_quadratic (A : Mat3) (hA : Aᵀ = A) (c n : V3) (t f : ℝ) :
    (A + f • (vecMulVec n c + vecMulVec c n) + (f * f * t) • vecMulVec n n).det =
      A.det + f * (2 * (c ⬝ᵥ (A.adjugate)ᵀ *ᵥ n)) +
        f * f * ((A + (vecMulVec n c + vecMulVec c n) + t • vecMulVec n n).det - A.det -
          2 * (c ⬝ᵥ (A.adjugate)ᵀ *ᵥ n)) := by
  have h01 : A 1 0 = A 0 1 := congrFun (congrFun hA 0) 1
  have h02 : A 2 0 = A 0 2 := congrFun (congrFun hA 0) 2
  have h12 : A 2 1 = A 1 2 := congrFun (congrFun hA 1) 2
  rw [Lemmas.dot3]
  simp only [adjugate_fin_three, det_fin_three, Matrix.add_apply, Matrix.smul_apply, vecMulVec_apply, smul_eq_mul,
    mulVec, dotProduct, Fin.sum_univ_three, transpose_apply, of_apply, cons_val', cons_val_zero, cons_val_one,
    cons_val, h01, h02, h12]
  ring

/-- The determinant is a quadratic polynomial of the fraction; the coefficient of `f` is the number
`minus_alpha` of the code. -/
theorem interface_quadratic {U : Mat3} (hU : Uᵀ = U) (a n : V3) (f : ℝ) :
    interfaceDet U a n f = interfaceDet U a n 0 + f * (2 * cofVal U a n) +
      f * f * (interfaceDet U a n 1 - interfaceDet U a n 0 - 2 * cofVal U a n) := by
  have hA : (U * U - 1)ᵀ = U * U - 1 := by rw [transpose_sub, transpose_mul, hU, transpose_one]
  have h0 : interfaceDet U a n 0 = (U * U - 1).det := by simp [interfaceDet]
  have h1 : interfaceDet U a n 1 =
      ((U * U - 1) + (vecMulVec n (U *ᵥ a) + vecMulVec (U *ᵥ a) n) + (a ⬝ᵥ a) • vecMulVec n n).det := by
    rw [interfaceDet, mix_expand hU]
    simp only [one_smul, one_mul]
  rw [h0, h1, cofVal_eq, interfaceDet, mix_expand hU, det_quadratic _ hA]

theorem minusAlpha_eq {U : Mat3} (hU : Uᵀ = U) (a n : V3) : 2 * cofVal U a n =
    4 * interfaceDet U a n (1 / 2) - 3 * interfaceDet U a n 0 - interfaceDet U a n 1 := by
  have := interface_quadratic hU a n (1 / 2)
  linear_combination -4 * this

theorem det_eq_zero_frac (U : Mat3) (a n : V3) : interfaceDet U a n 0 = (U * U - 1).det := by
  simp [interfaceDet]

/-- **C56**, every call: a returned fraction lies in [0, 1]; it leaves the determinant
`f² (D(1) - D(0))`, where `D(0)` and `D(1)` are the values for the two pure variants, unless it was snapped to 1 from
a distance of at most 1e-6, or is the 0 returned because `D` is constant up to 1e-12.  For any `a` and `n`, in
particular rounded ones. -/
theorem C56_residual (U : Mat3) (hU : Uᵀ = U) (a n : V3) (f : ℝ) (h : solveF U a n = some f) :
    0 ≤ f ∧ f ≤ 1 ∧
    (interfaceDet U a n f = f ^ 2 * (interfaceDet U a n 1 - interfaceDet U a n 0) ∨
     (f = 1 ∧ ∃ f', |1 - f'| < 1 / 10 ^ 6 ∧
       interfaceDet U a n f' = f' ^ 2 * (interfaceDet U a n 1 - interfaceDet U a n 0)) ∨
     (f = 0 ∧ |4 * interfaceDet U a n (1 / 2) - 3 * interfaceDet U a n 0 - interfaceDet U a n 1| < 1 / 10 ^ 12)) := by
  rw [← minusAlpha_eq hU]
  set m := 2 * cofVal U a n with hm
  have hroot : ∀ x : ℝ, 0 < x → x = ((U * U - 1).det + m / 4) / m → m ≠ 0 →
      interfaceDet U a n (1 / 2 + Real.sqrt x) =
        (1 / 2 + Real.sqrt x) ^ 2 * (interfaceDet U a n 1 - interfaceDet U a n 0) := by
    intro x hx he hm0
    rw [interface_quadratic hU, ← hm]
    have hs := Real.mul_self_sqrt hx.le
    have hx' : m * x = interfaceDet U a n 0 + m / 4 := by
      rw [det_eq_zero_frac, he]
      field_simp
    linear_combination (-m) * hs - hx'
  unfold solveF at h
  simp only [← hm] at h
  split_ifs at h with h1 h2 h3 h4 h5
  · cases h
    exact ⟨le_rfl, zero_le_one, .inr (.inr ⟨rfl, by simpa [small] using h1⟩)⟩
  · cases h
    have hm0 : m ≠ 0 := by rintro h0; rw [h0, div_zero] at h2; exact lt_irrefl _ h2
    exact ⟨zero_le_one, le_rfl, .inr (.inl ⟨rfl, _, h3, hroot _ h2 rfl hm0⟩)⟩
  · exfalso
    have := Real.sqrt_nonneg (((U * U - 1).det + m / 4) / m)
    rw [abs_of_nonneg (by linarith)] at h4
    norm_num at h4
    linarith
  · cases h
    have hm0 : m ≠ 0 := by rintro h0; rw [h0, div_zero] at h2; exact lt_irrefl _ h2
    exact ⟨h5.1.le, h5.2.le, .inl (hroot _ h2 rfl hm0)⟩

theorem interface_ends {U V Q : Mat3} {a n : V3} (hU : Uᵀ = U) (hV : Vᵀ = V) (hrel : Related U V)
    (h : SolvesTwin U V Q a n) : interfaceDet U a n 1 = interfaceDet U a n 0 := by
  obtain ⟨G, hG, hVG⟩ := hrel
  have hG' : Gᵀ * G = 1 := mul_eq_one_comm.1 hG.1
  have h1 : V * V = G * (U * U) * Gᵀ := by
    rw [hVG]
    calc G * U * Gᵀ * (G * U * Gᵀ) = G * U * (Gᵀ * G) * U * Gᵀ := by simp only [Matrix.mul_assoc]
      _ = _ := by rw [hG', Matrix.mul_one, ← Matrix.mul_assoc]
  have h2 : interfaceDet U a n 1 = (V * V - 1).det := by
    rw [solvesTwin_sq hU hV h, interfaceDet, mix_expand hU]
    congr 1
    simp only [one_smul, one_mul]
    abel
  have h3 : V * V - 1 = G * (U * U - 1) * Gᵀ := by
    rw [h1, mul_sub, sub_mul, Matrix.mul_one, hG.1]
  have h4 : G.det * Gᵀ.det = 1 := by rw [← det_mul, hG.1, det_one]
  rw [h2, h3, det_eq_zero_frac, det_mul, det_mul]
  linear_combination (U * U - 1).det * h4

/-- **C56** (partial), twins: for every exact solution of the twinning equation of two variants, a returned fraction
lies in [0, 1] and makes the determinant vanish, unless it was snapped to 1 from a solution at a distance of at most
1e-6 or the determinant is constant up to 1e-12.  Missing: `C56_zero_fails`. -/
theorem C56_volumefrac_partial (U V Q : Mat3) (a n : V3) (hU : IsSPD U) (hV : IsSPD V) (hrel : Related U V)
    (hs : SolvesTwin U V Q a n) (f : ℝ) (h : solveF U a n = some f) :
    0 ≤ f ∧ f ≤ 1 ∧
    (interfaceDet U a n f = 0 ∨
     (f = 1 ∧ ∃ f', |1 - f'| < 1 / 10 ^ 6 ∧ interfaceDet U a n f' = 0) ∨
     (f = 0 ∧ |interfaceDet U a n (1 / 2) - interfaceDet U a n 0| < 1 / (4 * 10 ^ 12))) := by
  have he := interface_ends hU.1 hV.1 hrel hs
  obtain ⟨h0, h1, h2⟩ := C56_residual U hU.1 a n f h
  simp only [he, sub_self, mul_zero] at h2
  refine ⟨h0, h1, h2.imp_right (Or.imp_right fun h => ⟨h.1, ?_⟩)⟩
  have h3 := h.2
  have e : 4 * interfaceDet U a n (1 / 2) - 3 * interfaceDet U a n 0 - interfaceDet U a n 0 =
    4 * (interfaceDet U a n (1 / 2) - interfaceDet U a n 0) := by ring
  rw [e, abs_mul, abs_of_pos (by norm_num : (0 : ℝ) < 4)] at h3
  have e2 : (1 : ℝ) / (4 * 10 ^ 12) = 1 / 10 ^ 12 / 4 := by norm_num
  rw [e2]
  linarith

/-- **C56** (partial), completeness: if the determinant is not constant up to 1e-12, every fraction in (1/2, 1] making it vanish
is returned, up to the snapping to 1; and the fractions below 1/2 are the complements of those above.
Missing: the fraction 1/2 (`C56_half_fails`). -/
theorem C56_complete_partial (U V Q : Mat3) (a n : V3) (hU : IsSPD U) (hV : IsSPD V) (hrel : Related U V)
    (hs : SolvesTwin U V Q a n)
    (hm : 1 / (4 * 10 ^ 12) ≤ |interfaceDet U a n (1 / 2) - interfaceDet U a n 0|) (f : ℝ) (hf : 1 / 2 < f)
    (hf1 : f ≤ 1) (h : interfaceDet U a n f = 0) :
    solveF U a n = some (if |1 - f| < 1 / 10 ^ 6 then 1 else f) ∧ interfaceDet U a n (1 - f) = 0 := by
  classical
  have he := interface_ends hU.1 hV.1 hrel hs
  have hq := interface_quadratic hU.1 a n
  have hma := minusAlpha_eq hU.1 a n
  rw [he] at hma
  simp only [he] at hq
  set m := 2 * cofVal U a n with hmdef
  have e : m = 4 * (interfaceDet U a n (1 / 2) - interfaceDet U a n 0) := by rw [hma]; ring
  have hm' : 1 / 10 ^ 12 ≤ |m| := by
    rw [e, abs_mul, abs_of_pos (by norm_num : (0 : ℝ) < 4)]
    have e2 : (1 : ℝ) / (4 * 10 ^ 12) = 1 / 10 ^ 12 / 4 := by norm_num
    rw [e2] at hm
    linarith
  have hm0 : m ≠ 0 := by rintro h0; rw [h0, abs_zero] at hm'; norm_num at hm'
  have hroot := hq f
  rw [h] at hroot
  have hx : ((U * U - 1).det + m / 4) / m = (f - 1 / 2) ^ 2 := by
    rw [← det_eq_zero_frac U a n, div_eq_iff hm0]
    linear_combination -hroot
  have hsq : Real.sqrt ((f - 1 / 2) ^ 2) = f - 1 / 2 := Real.sqrt_sq (by linarith)
  constructor
  · unfold solveF
    simp only [← hmdef]
    rw [if_neg (not_lt.2 (by simpa [small] using hm')), hx, if_pos (by have : 0 < f - 1 / 2 := by linarith
                                                                       positivity), hsq]
    have hff : 1 / 2 + (f - 1 / 2) = f := by ring
    rw [hff]
    split_ifs with h1 h2 h3
    · rfl
    · rw [abs_of_pos (by linarith)] at h2
      norm_num at h2
      linarith
    · rfl
    · exfalso
      apply h3
      refine ⟨by linarith, lt_of_le_of_ne hf1 ?_⟩
      rintro rfl
      apply h1
      norm_num
  · rw [hq (1 - f)]
    linear_combination -hroot

/-! ### examples -/

theorem axis_solves {U V : Mat3} (hU : IsSPD U) {e : V3} (he : IsTwinAxis U V e) :
    ∃ Q, SolvesTwin U V Q ((2 : ℝ) • (((U⁻¹ *ᵥ e) ⬝ᵥ (U⁻¹ *ᵥ e))⁻¹ • U⁻¹ *ᵥ e - U *ᵥ e)) e := by
  have hUd := (spd_det_pos hU).ne'
  have hg : U *ᵥ (U⁻¹ *ᵥ e) = e := by
    rw [mulVec_mulVec, mul_nonsing_inv _ (isUnit_iff_ne_zero.2 hUd), one_mulVec]
  have hden : (U⁻¹ *ᵥ e) ⬝ᵥ (U⁻¹ *ᵥ e) ≠ 0 := fun h =>
    mulVec_ne (inv_det_ne hUd) (unit_ne he.1) (dotProduct_self_eq_zero.1 h)
  obtain ⟨Q, hQ, hQe⟩ := twin_one hU.1 hg hden he.1
  have hV' : halfTurn e * U * halfTurn e = V := by rw [← he.2, halfTurn_symm]
  rw [hV'] at hQe
  exact ⟨Q, hQ, he.1, by rw [hQe]; abel⟩

/-- The twin of `diag(α, α, β)` and `diag(α, β, α)` with the axis `(0, 1, 1)/√2`. -/
theorem tetragonal_twin {α β : ℝ} (hα : 0 < α) (hβ : 0 < β) :
    ∃ V Q a n, IsSPD V ∧ Related (diagonal ![α, α, β]) V ∧ SolvesTwin (diagonal ![α, α, β]) V Q a n ∧
      vecMulVec a n = ((β ^ 2 - α ^ 2) / (α ^ 2 + β ^ 2)) • !![0, 0, 0; 0, α, α; 0, -β, -β] := by
  set r := Real.sqrt (1 / 2) with hr
  have hrr : r * r = 1 / 2 := Real.mul_self_sqrt (by norm_num)
  clear_value r
  have hU : IsSPD (diagonal ![α, α, β]) := spd_diagonal (by intro i; fin_cases i <;> simp [hα, hβ])
  have hu : (![0, r, r] : V3) ⬝ᵥ ![0, r, r] = 1 := by
    rw [Lemmas.dot3]; simp; linarith
  obtain ⟨Q, hQ⟩ := axis_solves hU (V := halfTurn ![0, r, r] * diagonal ![α, α, β] * (halfTurn ![0, r, r])ᵀ)
    ⟨hu, rfl⟩
  refine ⟨_, Q, _, _, ?_, ⟨_, halfTurn_rotation hu, rfl⟩, hQ, ?_⟩
  · exact conj_spd hU (halfTurn_rotation hu).1
  · rw [diagonal_inv3 hα.ne' hα.ne' hβ.ne']
    have hs : α ^ 2 + β ^ 2 ≠ 0 := by positivity
    have e1 : diagonal ![α⁻¹, α⁻¹, β⁻¹] *ᵥ ![0, r, r] = ![0, α⁻¹ * r, β⁻¹ * r] := by
      funext i; fin_cases i <;> simp [mulVec_diagonal]
    have e2 : diagonal ![α, α, β] *ᵥ ![0, r, r] = ![0, α * r, β * r] := by
      funext i; fin_cases i <;> simp [mulVec_diagonal]
    have e3 : ((![0, α⁻¹ * r, β⁻¹ * r] : V3) ⬝ᵥ ![0, α⁻¹ * r, β⁻¹ * r])⁻¹ = 2 * α ^ 2 * β ^ 2 / (α ^ 2 + β ^ 2) := by
      rw [Lemmas.dot3]
      simp only [cons_val]
      rw [inv_eq_iff_eq_inv, inv_div]
      field_simp
      linear_combination (2 * (α ^ 2 + β ^ 2)) * hrr
    rw [e1, e2, e3]
    ext i j
    fin_cases i <;> fin_cases j <;> simp [vecMulVec_apply] <;> field_simp <;> (try ring_nf) <;>
      (try simp only [show r ^ 2 = 1 / 2 by rw [sq]; exact hrr]) <;> (try ring)

theorem interface_of_dyad {U M : Mat3} {a n : V3} (h : vecMulVec a n = M) (f : ℝ) :
    interfaceDet U a n f = ((U + f • Mᵀ) * (U + f • M) - 1).det := by
  rw [interfaceDet, ← h, transpose_vecMulVec]

theorem tetragonal_det (α β f : ℝ) {a n : V3} {k : ℝ} (h : vecMulVec a n = k • !![0, 0, 0; 0, α, α; 0, -β, -β]) :
    interfaceDet (diagonal ![α, α, β]) a n f = (α ^ 2 - 1) *
      (((α + f * k * α) ^ 2 + (f * k * β) ^ 2 - 1) * ((f * k * α) ^ 2 + (β - f * k * β) ^ 2 - 1) -
        ((α + f * k * α) * (f * k * α) - (f * k * β) * (β - f * k * β)) ^ 2) := by
  rw [interface_of_dyad h, diagonal_lit, det_fin_three]
  simp [Matrix.mul_apply, Fin.sum_univ_three]
  ring

-- `diag(3, 3, 3/4)` meets the hypotheses of the theorems above, with the fraction 28/45
example : ∃ U V Q a n, IsSPD U ∧ IsSPD V ∧ Related U V ∧ SolvesTwin U V Q a n ∧
    1 / (4 * 10 ^ 12) ≤ |interfaceDet U a n (1 / 2) - interfaceDet U a n 0| ∧ interfaceDet U a n (28 / 45) = 0 ∧
    solveF U a n = some (28 / 45) := by
  obtain ⟨V, Q, a, n, hV, hrel, hs, hd⟩ := tetragonal_twin (α := 3) (β := 3 / 4) (by norm_num) (by norm_num)
  have hU : IsSPD (diagonal ![(3 : ℝ), 3, 3 / 4]) := spd_diagonal (by intro i; fin_cases i <;> norm_num)
  have h1 : 1 / (4 * 10 ^ 12) ≤ |interfaceDet (diagonal ![3, 3, 3 / 4]) a n (1 / 2) -
      interfaceDet (diagonal ![3, 3, 3 / 4]) a n 0| := by
    rw [tetragonal_det 3 (3 / 4) _ hd, tetragonal_det 3 (3 / 4) _ hd]
    norm_num [abs_of_pos, abs_of_neg]
  have h2 : interfaceDet (diagonal ![3, 3, 3 / 4]) a n (28 / 45) = 0 := by
    rw [tetragonal_det 3 (3 / 4) _ hd]
    norm_num
  have h3 := (C56_complete_partial _ V Q a n hU hV hrel hs h1 (28 / 45) (by norm_num) (by norm_num) h2).1
  rw [if_neg (by norm_num [abs_of_pos])] at h3
  exact ⟨_, V, Q, a, n, hU, hV, hrel, hs, h1, h2, h3⟩

/-- **C56**, the fraction 1/2 is missed: for `diag(7/5, 7/5, 1/5)` it makes the determinant vanish, but `None` is
returned. -/
theorem C56_half_fails : ∃ U V Q a n, IsSPD U ∧ IsSPD V ∧ Related U V ∧ SolvesTwin U V Q a n ∧
    interfaceDet U a n (1 / 2) = 0 ∧ interfaceDet U a n 0 ≠ 0 ∧ solveF U a n = none := by
  obtain ⟨V, Q, a, n, hV, hrel, hs, hd⟩ := tetragonal_twin (α := 7 / 5) (β := 1 / 5) (by norm_num) (by norm_num)
  have hU : IsSPD (diagonal ![(7 / 5 : ℝ), 7 / 5, 1 / 5]) := spd_diagonal (by intro i; fin_cases i <;> norm_num)
  have h2 : interfaceDet (diagonal ![7 / 5, 7 / 5, 1 / 5]) a n (1 / 2) = 0 := by
    rw [tetragonal_det (7 / 5) (1 / 5) _ hd]
    norm_num
  have h0 : interfaceDet (diagonal ![7 / 5, 7 / 5, 1 / 5]) a n 0 ≠ 0 := by
    rw [tetragonal_det (7 / 5) (1 / 5) _ hd]
    norm_num
  refine ⟨_, V, Q, a, n, hU, hV, hrel, hs, h2, h0, ?_⟩
  have he := interface_ends hU.1 hV.1 hrel hs
  have hm := minusAlpha_eq hU.1 a n
  rw [he, h2] at hm
  have hm' : 2 * cofVal (diagonal ![7 / 5, 7 / 5, 1 / 5]) a n =
      -4 * interfaceDet (diagonal ![7 / 5, 7 / 5, 1 / 5]) a n 0 := by rw [hm]; ring
  have h0v := tetragonal_det (7 / 5) (1 / 5) 0 hd
  unfold solveF
  simp only [hm', ← det_eq_zero_frac _ a n]
  rw [if_neg, if_neg]
  · rw [show interfaceDet (diagonal ![7 / 5, 7 / 5, 1 / 5]) a n 0 +
      -4 * interfaceDet (diagonal ![7 / 5, 7 / 5, 1 / 5]) a n 0 / 4 = 0 by ring, zero_div]
    exact lt_irrefl 0
  · rw [h0v]
    norm_num [small, abs_of_pos, abs_of_neg]

/-- **C56**, a fraction is returned although there is none: for `√2 diag(1/4, 1/2, 1)` and the axis
`(2, 2, 1)/3` the determinant is 7/16 for every fraction, and 0 is returned. -/
theorem C56_zero_fails : ∃ U V Q a n, IsSPD U ∧ IsSPD V ∧ Related U V ∧ SolvesTwin U V Q a n ∧
    solveF U a n = some 0 ∧ ∀ f, interfaceDet U a n f ≠ 0 := by
  set q := Real.sqrt 2 with hq
  have hqq : q * q = 2 := Real.mul_self_sqrt (by norm_num)
  have hq0 : 0 < q := Real.sqrt_pos.2 (by norm_num)
  clear_value q
  have hU : IsSPD (diagonal ![q / 4, q / 2, q]) := spd_diagonal (by intro i; fin_cases i <;> simp <;> positivity)
  have hu : (![2 / 3, 2 / 3, 1 / 3] : V3) ⬝ᵥ ![2 / 3, 2 / 3, 1 / 3] = 1 := by
    rw [Lemmas.dot3]; simp; norm_num
  obtain ⟨Q, hQ⟩ := axis_solves hU (V := halfTurn ![2 / 3, 2 / 3, 1 / 3] * diagonal ![q / 4, q / 2, q] *
    (halfTurn ![2 / 3, 2 / 3, 1 / 3])ᵀ) ⟨hu, rfl⟩
  have hV := conj_spd hU (halfTurn_rotation hu).1
  have hrel : Related (diagonal ![q / 4, q / 2, q]) _ := ⟨_, halfTurn_rotation hu, rfl⟩
  have hconst : ∀ f, interfaceDet (diagonal ![q / 4, q / 2, q])
      ((2 : ℝ) • ((((diagonal ![q / 4, q / 2, q])⁻¹ *ᵥ ![2 / 3, 2 / 3, 1 / 3]) ⬝ᵥ
        ((diagonal ![q / 4, q / 2, q])⁻¹ *ᵥ ![2 / 3, 2 / 3, 1 / 3]))⁻¹ •
        (diagonal ![q / 4, q / 2, q])⁻¹ *ᵥ ![2 / 3, 2 / 3, 1 / 3] -
        diagonal ![q / 4, q / 2, q] *ᵥ ![2 / 3, 2 / 3, 1 / 3])) ![2 / 3, 2 / 3, 1 / 3] f = 7 / 16 := by
    intro f
    rw [diagonal_inv3 (by positivity) (by positivity) (by positivity)]
    have e1 : diagonal ![(q / 4)⁻¹, (q / 2)⁻¹, q⁻¹] *ᵥ ![2 / 3, 2 / 3, 1 / 3] = ![4 / 3 * q, 2 / 3 * q, 1 / 6 * q] := by
      funext i
      fin_cases i <;> simp [mulVec_diagonal] <;> field_simp <;> nlinarith
    have e2 : diagonal ![q / 4, q / 2, q] *ᵥ ![2 / 3, 2 / 3, 1 / 3] = ![q / 6, q / 3, q / 3] := by
      funext i
      fin_cases i <;> simp [mulVec_diagonal] <;> ring
    have e3 : ((![4 / 3 * q, 2 / 3 * q, 1 / 6 * q] : V3) ⬝ᵥ ![4 / 3 * q, 2 / 3 * q, 1 / 6 * q])⁻¹ = 2 / 9 := by
      rw [Lemmas.dot3]
      simp only [cons_val]
      rw [inv_eq_iff_eq_inv, inv_div]
      linear_combination (9 / 4 : ℝ) * hqq
    rw [e1, e2, e3]
    have e4 : vecMulVec ((2 : ℝ) • ((2 / 9 : ℝ) • ![4 / 3 * q, 2 / 3 * q, 1 / 6 * q] - ![q / 6, q / 3, q / 3]))
        ![2 / 3, 2 / 3, 1 / 3] = q • !![14 / 81, 14 / 81, 7 / 81; -20 / 81, -20 / 81, -10 / 81; -32 / 81, -32 / 81, -16 / 81] := by
      ext i j
      fin_cases i <;> fin_cases j <;> simp [vecMulVec_apply] <;> ring
    have e5 : (diagonal ![q / 4, q / 2, q] : Mat3) = q • !![1 / 4, 0, 0; 0, 1 / 2, 0; 0, 0, 1] := by
      rw [diagonal_lit]
      ext i j
      fin_cases i <;> fin_cases j <;> simp <;> ring
    rw [interface_of_dyad e4, e5, transpose_smul, smul_comm f q, smul_comm f q, ← smul_add, ← smul_add,
      smul_mul_smul_comm, hqq, det_fin_three]
    simp [Matrix.mul_apply, Fin.sum_univ_three]
    ring
  refine ⟨_, _, Q, _, _, hU, hV, hrel, hQ, ?_, fun f => by rw [hconst]; norm_num⟩
  have hm := minusAlpha_eq hU.1 ((2 : ℝ) • ((((diagonal ![q / 4, q / 2, q])⁻¹ *ᵥ ![2 / 3, 2 / 3, 1 / 3]) ⬝ᵥ
        ((diagonal ![q / 4, q / 2, q])⁻¹ *ᵥ ![2 / 3, 2 / 3, 1 / 3]))⁻¹ •
        (diagonal ![q / 4, q / 2, q])⁻¹ *ᵥ ![2 / 3, 2 / 3, 1 / 3] -
        diagonal ![q / 4, q / 2, q] *ᵥ ![2 / 3, 2 / 3, 1 / 3])) ![2 / 3, 2 / 3, 1 / 3]
  rw [hconst, hconst, hconst] at hm
  unfold solveF
  simp only [hm]
  rw [if_pos (by norm_num [small])]

end Verif.Props
