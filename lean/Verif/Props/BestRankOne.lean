import Verif.Spec.BestRankOne
import Verif.Props.Rank1

/-!
# The habit-plane solvers if the middle eigenvalue is not exactly one

C117: the two pairs are then best approximations, and the error is the distance of the middle eigenvalue from one.
-/

namespace Verif.Props

open Matrix Verif.Model Verif.Spec Verif.Lemmas

local notation "Mat3" => Matrix (Fin 3) (Fin 3) ℝ

/-! ### coordinates with respect to the eigenvectors -/

/-- An orthonormal frame of eigenvectors. -/
structure EigFrame (C : Mat3) (l : Fin 3 → ℝ) (x w z : V3) : Prop where
  ux : x ⬝ᵥ x = 1
  uw : w ⬝ᵥ w = 1
  uz : z ⬝ᵥ z = 1
  xw : x ⬝ᵥ w = 0
  zw : z ⬝ᵥ w = 0
  xz : x ⬝ᵥ z = 0
  length : ∀ v : V3, v ⬝ᵥ v = (x ⬝ᵥ v) ^ 2 + (w ⬝ᵥ v) ^ 2 + (z ⬝ᵥ v) ^ 2
  form : ∀ v : V3, v ⬝ᵥ C *ᵥ v = l 0 * (x ⬝ᵥ v) ^ 2 + l 1 * (w ⬝ᵥ v) ^ 2 + l 2 * (z ⬝ᵥ v) ^ 2

theorem dyad_form (x v : V3) : v ⬝ᵥ vecMulVec x x *ᵥ v = (x ⬝ᵥ v) ^ 2 := by
  rw [vecMulVec_mulVec, op_smul_eq_smul, dotProduct_smul, smul_eq_mul, dotProduct_comm v x, pow_two]

theorem eig_frame {C : Mat3} (hC : Cᵀ = C) {e : EigRes} (he : EigOK e.vals e.vecs C) (h02 : e.vals 0 < e.vals 2) :
    EigFrame C e.vals (e.vecs 0) (e.vecs 2 ⨯₃ e.vecs 0) (e.vecs 2) := by
  have ux := he.unit 0
  have uz := he.unit 2
  have hxz := eig_orth hC (he.eigenvector 0) (he.eigenvector 2) h02.ne
  have hzx : e.vecs 2 ⬝ᵥ e.vecs 0 = 0 := by rw [dotProduct_comm]; exact hxz
  have hsp := spectral3 hC (he.eigenvector 0) (he.eigenvector 2) ux uz hxz (trace_three he.eigenvalues)
  have hone := frame_complete uz ux hzx
  simp only [outer_eq] at hone
  have hlen : ∀ v : V3, v ⬝ᵥ v = (e.vecs 0 ⬝ᵥ v) ^ 2 + ((e.vecs 2 ⨯₃ e.vecs 0) ⬝ᵥ v) ^ 2 + (e.vecs 2 ⬝ᵥ v) ^ 2 := fun v => by
    have h := congrArg (fun M : Mat3 => v ⬝ᵥ M *ᵥ v) hone
    simp only [add_mulVec, sub_mulVec, dotProduct_add, dotProduct_sub, dyad_form, one_mulVec] at h
    linarith
  refine ⟨ux, ?_, uz, ?_, ?_, hxz, hlen, fun v => ?_⟩
  · rw [cross_norm uz hzx, ux]
  · rw [Lemmas.dot3]; simp [cross_apply]; ring
  · rw [Lemmas.dot3]; simp [cross_apply]; ring
  · conv_lhs => rw [hsp]
    simp only [add_mulVec, smul_mulVec, dotProduct_add, dotProduct_smul, dyad_form, one_mulVec, smul_eq_mul]
    rw [hlen v]
    ring

/-- Some unit vector perpendicular to two given ones, one of which is perpendicular to a third. -/
theorem exists_perp {u w : V3} (hu : u ⬝ᵥ u = 1) (hw : w ⬝ᵥ w = 1) (huw : u ⬝ᵥ w = 0) (m : V3) :
    ∃ v : V3, v ⬝ᵥ v = 1 ∧ u ⬝ᵥ v = 0 ∧ m ⬝ᵥ v = 0 := by
  set p := u ⨯₃ m with hp
  have h1 : u ⬝ᵥ p = 0 := by rw [hp, Lemmas.dot3]; simp [cross_apply]; ring
  have h2 : m ⬝ᵥ p = 0 := by rw [hp, Lemmas.dot3]; simp [cross_apply]; ring
  by_cases h : p ⬝ᵥ p = 0
  · have hlag : p ⬝ᵥ p = m ⬝ᵥ m - (u ⬝ᵥ m) ^ 2 := by
      have : p ⬝ᵥ p = u ⬝ᵥ u * (m ⬝ᵥ m) - (u ⬝ᵥ m) ^ 2 := by
        rw [hp, Lemmas.dot3, Lemmas.dot3, Lemmas.dot3, Lemmas.dot3]; simp [cross_apply]; ring
      rw [this, hu, one_mul]
    have hz : m - (u ⬝ᵥ m) • u = 0 := by
      apply dotProduct_self_eq_zero.1
      simp only [sub_dotProduct, dotProduct_sub, smul_dotProduct, dotProduct_smul, smul_eq_mul, hu, dotProduct_comm m u]
      linarith
    refine ⟨w, hw, huw, ?_⟩
    rw [sub_eq_zero.1 hz, smul_dotProduct, huw, smul_zero]
  · have hpos : 0 < p ⬝ᵥ p := lt_of_le_of_ne (Finset.sum_nonneg fun i _ => mul_self_nonneg _) (Ne.symm h)
    have hs := Real.sqrt_pos.2 hpos
    refine ⟨(Real.sqrt (p ⬝ᵥ p))⁻¹ • p, ?_, ?_, ?_⟩
    · rw [smul_dotProduct, dotProduct_smul, smul_eq_mul, smul_eq_mul, ← mul_assoc, ← mul_inv, Real.mul_self_sqrt hpos.le,
        inv_mul_cancel₀ h]
    · rw [dotProduct_smul, h1, smul_zero]
    · rw [dotProduct_smul, h2, smul_zero]

theorem dyad_mulVec (b m v : V3) : (1 + vecMulVec b m : Mat3) *ᵥ v = v + (m ⬝ᵥ v) • b := by
  rw [add_mulVec, one_mulVec, vecMulVec_mulVec, op_smul_eq_smul]

/-- no rank-one connection is closer than the middle eigenvalue is to one -/
theorem best_bound {C : Mat3} {l : Fin 3 → ℝ} (hl : Monotone l) {x w z : V3} (hf : EigFrame C l x w z) (b m : V3) :
    ∃ v, v ⬝ᵥ v = 1 ∧ |1 - l 1| ≤ |lengthError C b m v| := by
  have h01 : l 0 ≤ l 1 := hl (by decide)
  have h12 : l 1 ≤ l 2 := hl (by decide)
  have val : ∀ v, v ⬝ᵥ v = 1 → m ⬝ᵥ v = 0 → lengthError C b m v = 1 - v ⬝ᵥ C *ᵥ v := fun v h1 h2 => by
    rw [lengthError, dyad_mulVec, h2, zero_smul, add_zero, h1]
  rcases le_total (l 1) 1 with h | h
  · obtain ⟨v, h1, h2, h3⟩ := exists_perp hf.uz hf.uw hf.zw m
    refine ⟨v, h1, ?_⟩
    rw [val v h1 h3, hf.form, h2, abs_of_nonneg (by linarith)]
    have := hf.length v
    rw [h1, h2] at this
    refine le_trans ?_ (le_abs_self _)
    nlinarith [pow_two_nonneg (x ⬝ᵥ v)]
  · obtain ⟨v, h1, h2, h3⟩ := exists_perp hf.ux hf.uw hf.xw m
    refine ⟨v, h1, ?_⟩
    rw [val v h1 h3, hf.form, h2, abs_of_nonpos (by linarith)]
    have := hf.length v
    rw [h1, h2] at this
    refine le_trans ?_ (neg_le_abs _)
    nlinarith [pow_two_nonneg (z ⬝ᵥ v)]

/-- the formulas of the solvers, whatever the middle eigenvalue -/
theorem am_best {C : Mat3} (hC : Cᵀ = C) {e : EigRes} (he : EigOK e.vals e.vecs C) (hm : Monotone e.vals)
    (h0 : 0 < e.vals 0) (h02 : e.vals 0 < e.vals 2) (hle : e.vals 0 ≤ 1) (hge : 1 ≤ e.vals 2)
    {s : ℝ} (hs : s * s = 1) {c c1 c3 : ℝ} (hc : c = Real.sqrt (e.vals 2 - e.vals 0))
    (hc1 : c1 = Real.sqrt (1 - e.vals 0)) (hc3 : c3 = Real.sqrt (e.vals 2 - 1)) :
    BestRankOne C |1 - e.vals 1| (amPair e c c1 c3 s).1 (amPair e c c1 c3 s).2 := by
  have hf := eig_frame hC he h02
  obtain ⟨e2, e1⟩ := am_formula hC he h0 h02 hle hge hs hc hc1 hc3
  set x := e.vecs 0
  set z := e.vecs 2
  set w := z ⨯₃ x
  set al := Real.sqrt (e.vals 0) with hal
  set ga := Real.sqrt (e.vals 2) with hga
  have al2 : al ^ 2 = e.vals 0 := Real.sq_sqrt h0.le
  have ga2 : ga ^ 2 = e.vals 2 := Real.sq_sqrt (h0.trans h02).le
  have alpos : 0 < al := Real.sqrt_pos.2 h0
  have gapos : 0 < ga := Real.sqrt_pos.2 (h0.trans h02)
  have c2 : c ^ 2 = ga ^ 2 - al ^ 2 := by rw [hc, Real.sq_sqrt (by linarith), al2, ga2]
  have c12 : c1 ^ 2 = 1 - al ^ 2 := by rw [hc1, Real.sq_sqrt (by linarith), al2]
  have c32 : c3 ^ 2 = ga ^ 2 - 1 := by rw [hc3, Real.sq_sqrt (by linarith), ga2]
  have cpos : 0 < c := by rw [hc]; exact Real.sqrt_pos.2 (by linarith)
  have hu2 : (c1 / c) ^ 2 * (ga ^ 2 - al ^ 2) = 1 - al ^ 2 := by rw [← c2, ← c12]; field_simp
  have hv2 : (c3 / c) ^ 2 * (ga ^ 2 - al ^ 2) = ga ^ 2 - 1 := by rw [← c2, ← c32]; field_simp
  have hdpos : 0 < ga ^ 2 - al ^ 2 := by rw [← c2]; positivity
  set u := c1 / c
  set v := c3 / c
  have huv : u ^ 2 + v ^ 2 = 1 := by
    apply mul_right_cancel₀ hdpos.ne'
    linear_combination hu2 + hv2
  have hb2 : ga ^ 2 * u ^ 2 + al ^ 2 * v ^ 2 = 1 := by
    apply mul_right_cancel₀ hdpos.ne'
    linear_combination ga ^ 2 * hu2 + al ^ 2 * hv2
  have hbm : (ga - al) * (-ga * u ^ 2 + al * v ^ 2) = al * ga - 1 := by
    apply mul_right_cancel₀ hdpos.ne'
    linear_combination (ga - al) * (-ga * hu2 + al * hv2)
  rw [e1, e2]
  have hzx : z ⬝ᵥ x = 0 := by rw [dotProduct_comm]; exact hf.xz
  refine ⟨?_, ?_, fun y => ?_, best_bound hm hf⟩
  · simp only [dotProduct_add, add_dotProduct, dotProduct_smul, smul_dotProduct, smul_eq_mul, dotProduct_neg, neg_dotProduct, hf.ux,
      hf.uz, hf.xz, hzx]
    linear_combination huv + v ^ 2 * hs
  · rw [det_one_add_dyad]
    simp only [dotProduct_add, add_dotProduct, dotProduct_smul, smul_dotProduct, smul_eq_mul, dotProduct_neg, neg_dotProduct, hf.ux,
      hf.uz, hf.xz, hzx]
    have := mul_pos alpos gapos
    have e : (1 : ℝ) + (-(u * ((ga - al) * (ga * u * 1 + s * (al * v) * 0))) +
      s * v * ((ga - al) * (ga * u * 0 + s * (al * v) * 1))) = al * ga := by
      linear_combination hbm + (ga - al) * al * v ^ 2 * hs
    first
    | (rw [e]; exact this)
    | nlinarith [hbm, hs]
  · have key : lengthError C ((ga - al) • ((ga * u) • x + (s * (al * v)) • z)) (-(u • x) + (s * v) • z) y =
        (1 - e.vals 1) * (w ⬝ᵥ y) ^ 2 := by
      rw [lengthError, dyad_mulVec, hf.form]
      simp only [dotProduct_add, add_dotProduct, dotProduct_smul, smul_dotProduct, smul_eq_mul, neg_dotProduct, hf.ux,
        hf.uz, hf.xz, hzx]
      rw [hf.length y, dotProduct_comm y x, dotProduct_comm y z, ← al2, ← ga2]
      generalize x ⬝ᵥ y = X
      generalize z ⬝ᵥ y = Z
      generalize w ⬝ᵥ y = W
      linear_combination (-(X ^ 2)) * hu2 + Z ^ 2 * hv2 + (Z ^ 2 * (v ^ 2 * (ga ^ 2 - al ^ 2))) * hs +
        ((-(u * X) + s * v * Z) ^ 2 * (ga - al) ^ 2) * (hb2 + (al * v) ^ 2 * hs)
    rw [key, abs_mul, abs_of_nonneg (pow_two_nonneg (w ⬝ᵥ y))]
    refine mul_le_mul_of_nonneg_left ?_ (abs_nonneg _)
    rw [hf.length y]
    nlinarith [pow_two_nonneg (x ⬝ᵥ y), pow_two_nonneg (z ⬝ᵥ y)]

theorem core_best {eig : Mat3 → EigRes} {C : Mat3} (heig : EigOK (eig C).vals (eig C).vecs C)
    (hC : IsSPD C) {l : Fin 3 → ℝ} (hl : SortedEigenvalues C l) (hle : l 0 ≤ 1) (hge : 1 ≤ l 2) (h02 : l 0 < l 2)
    {s : ℝ} (hs : s * s = 1) :
    amM (sortEig eig C) (Real.sqrt (l 2 - l 0)) (Real.sqrt (1 - l 0)) (Real.sqrt (l 2 - 1)) s ≠ 0 ∧
    BestRankOne C |1 - l 1|
      (amPair (sortEig eig C) (Real.sqrt (l 2 - l 0)) (Real.sqrt (1 - l 0)) (Real.sqrt (l 2 - 1)) s).1
      (amPair (sortEig eig C) (Real.sqrt (l 2 - l 0)) (Real.sqrt (1 - l 0)) (Real.sqrt (l 2 - 1)) s).2 := by
  obtain ⟨he, hv⟩ := sorted_eq heig hl
  have hp := spd_eigen_pos hC hl.2 0
  constructor
  · refine amM_ne_zero hC he (by rw [hv]; exact h02) hs (Real.sqrt_pos.2 (by linarith)).ne' ?_
    by_cases h0 : l 0 = 1
    · exact .inr (Real.sqrt_pos.2 (by linarith)).ne'
    · exact .inl (Real.sqrt_pos.2 (by linarith [lt_of_le_of_ne hle h0])).ne'
  · have := am_best hC.1 he (by rw [hv]; exact hl.1) (by rw [hv]; exact hp) (by rw [hv]; exact h02) (by rw [hv]; exact hle)
      (by rw [hv]; exact hge) hs rfl rfl rfl
    rw [hv] at this
    exact this

/-- the angle between the two planes -/
theorem core_angle {eig : Mat3 → EigRes} {C : Mat3} (heig : EigOK (eig C).vals (eig C).vecs C)
    (hC : IsSPD C) {l : Fin 3 → ℝ} (hl : SortedEigenvalues C l) (hle : l 0 ≤ 1) (hge : 1 ≤ l 2) (h02 : l 0 < l 2) :
    (amPair (sortEig eig C) (Real.sqrt (l 2 - l 0)) (Real.sqrt (1 - l 0)) (Real.sqrt (l 2 - 1)) 1).2 ⬝ᵥ
      (amPair (sortEig eig C) (Real.sqrt (l 2 - l 0)) (Real.sqrt (1 - l 0)) (Real.sqrt (l 2 - 1)) (-1)).2 * (l 2 - l 0) =
      2 - l 0 - l 2 := by
  obtain ⟨he, hv⟩ := sorted_eq heig hl
  have hp := spd_eigen_pos hC hl.2 0
  have k : ∀ s : ℝ, s * s = 1 → _ := fun s hs => (am_formula hC.1 he (by rw [hv]; exact hp) (by rw [hv]; exact h02)
    (by rw [hv]; exact hle) (by rw [hv]; exact hge) hs rfl rfl rfl).1
  have hf := eig_frame hC.1 he (by rw [hv]; exact h02)
  have k1 := k 1 (by norm_num)
  have k2 := k (-1) (by norm_num)
  rw [hv] at k1 k2
  rw [k1, k2]
  have cpos : 0 < Real.sqrt (l 2 - l 0) := Real.sqrt_pos.2 (by linarith)
  have c2 : Real.sqrt (l 2 - l 0) ^ 2 = l 2 - l 0 := Real.sq_sqrt (by linarith)
  have c12 : Real.sqrt (1 - l 0) ^ 2 = 1 - l 0 := Real.sq_sqrt (by linarith)
  have c32 : Real.sqrt (l 2 - 1) ^ 2 = l 2 - 1 := Real.sq_sqrt (by linarith)
  have hzx : (sortEig eig C).vecs 2 ⬝ᵥ (sortEig eig C).vecs 0 = 0 := by rw [dotProduct_comm]; exact hf.xz
  simp only [dotProduct_add, add_dotProduct, dotProduct_smul, smul_dotProduct, smul_eq_mul, dotProduct_neg, neg_dotProduct, hf.ux,
    hf.uz, hf.xz, hzx]
  have e : 2 - l 0 - l 2 = Real.sqrt (1 - l 0) ^ 2 - Real.sqrt (l 2 - 1) ^ 2 := by rw [c12, c32]; ring
  rw [e]
  generalize Real.sqrt (1 - l 0) = p
  generalize Real.sqrt (l 2 - 1) = q
  generalize Real.sqrt (l 2 - l 0) = c at *
  rw [← c2]
  field_simp
  ring

/-- **C117**, `solve_rank1`: for every symmetric positive definite `C` with `λ₁ ≤ 1 ≤ λ₃`, whatever the middle eigenvalue `λ₂`, the two
returned pairs are best approximations with the error `|1 - λ₂|`.  The angle between their planes has the cosine
`(2 - λ₁ - λ₃)/(λ₃ - λ₁)`, so that the planes are different if `λ₁ < 1 < λ₃`. -/
theorem C117_solve_rank1 (eig : Mat3 → EigRes) (heig : ∀ A, Aᵀ = A → EigOK (eig A).vals (eig A).vecs A)
    (C : Mat3) (hC : IsSPD C) (l : Fin 3 → ℝ) (hl : SortedEigenvalues C l) (hle : l 0 ≤ 1) (hge : 1 ≤ l 2)
    (h : 1 / 10 ^ 24 ≤ l 2 - l 0) :
    ∃ b₁ m₁ b₂ m₂, solveRank1 eig C = .ok (.two (b₁, m₁) (b₂, m₂)) ∧
      BestRankOne C |1 - l 1| b₁ m₁ ∧ BestRankOne C |1 - l 1| b₂ m₂ ∧ m₁ ⬝ᵥ m₂ * (l 2 - l 0) = 2 - l 0 - l 2 := by
  have hv := (sorted_eq (heig C hC.1) hl).2
  have hpd := posDefSym_of_spd hC
  have h02 : l 0 < l 2 := by have : (0 : ℝ) < 1 / 10 ^ 24 := by norm_num
                             linarith
  have k1 := core_best (heig C hC.1) hC hl hle hge h02 (s := 1) (by norm_num)
  have k2 := core_best (heig C hC.1) hC hl hle hge h02 (s := -1) (by norm_num)
  refine ⟨_, _, _, _, ?_, k1.2, k2.2, core_angle (heig C hC.1) hC hl hle hge h02⟩
  simp only [solveRank1, hv, abs_of_nonneg (sub_nonneg.2 hle), abs_of_nonneg (sub_nonneg.2 hge)]
  rw [if_neg (not_not.2 hpd), if_neg (by rw [sqrt_lt_small]; exact not_lt.2 h), if_neg]
  have p0 := spd_eigen_pos hC hl.2 0
  have p2 := spd_eigen_pos hC hl.2 2
  rintro (h | h | h | h)
  · linarith
  · linarith
  · exact k1.1 h
  · exact k2.1 h

/-- **C117**, `AM_Solver`: the same for middle eigenvalues closer than 1e-4 to one; for others nothing is returned. -/
theorem C117_am_solver (eig : Mat3 → EigRes) (heig : ∀ A, Aᵀ = A → EigOK (eig A).vals (eig A).vecs A)
    (C : Mat3) (hC : IsSPD C) (l : Fin 3 → ℝ) (hl : SortedEigenvalues C l) (hle : l 0 ≤ 1) (hge : 1 ≤ l 2)
    (h : 1 / 10 ^ 12 ≤ l 2 - l 0) :
    (|l 1 - 1| < 1 / 10 ^ 4 → ∃ b₁ m₁ b₂ m₂, amSolver eig C = .ok (.two (b₁, m₁) (b₂, m₂)) ∧
      BestRankOne C |1 - l 1| b₁ m₁ ∧ BestRankOne C |1 - l 1| b₂ m₂ ∧ m₁ ⬝ᵥ m₂ * (l 2 - l 0) = 2 - l 0 - l 2) ∧
    (1 / 10 ^ 4 ≤ |l 1 - 1| → amSolver eig C = .ok .nothing) := by
  have hv := (sorted_eq (heig C hC.1) hl).2
  have h02 : l 0 < l 2 := by have : (0 : ℝ) < 1 / 10 ^ 12 := by norm_num
                             linarith
  have k1 := core_best (heig C hC.1) hC hl hle hge h02 (s := 1) (by norm_num)
  have k2 := core_best (heig C hC.1) hC hl hle hge h02 (s := -1) (by norm_num)
  have p0 := spd_eigen_pos hC hl.2 0
  have p2 := spd_eigen_pos hC hl.2 2
  have hsym : ¬ (1 / 10 ^ 9 < fnorm (Cᵀ - C)) := by
    rw [hC.1, sub_self, fnorm]
    norm_num
  have hneg : ¬ (l 2 - l 0 < 0 ∨ 1 - l 0 < 0 ∨ l 2 - 1 < 0) := by
    rintro (h | h | h) <;> linarith
  have hthr : ¬ Real.sqrt (l 2 - l 0) < 1 / 10 ^ 6 := by
    rw [Real.sqrt_lt' (by norm_num)]
    norm_num at h ⊢
    exact h
  constructor
  · intro h1
    refine ⟨_, _, _, _, ?_, k1.2, k2.2, core_angle (heig C hC.1) hC hl hle hge h02⟩
    simp only [amSolver, hv]
    rw [if_neg hsym, if_neg hneg, if_neg hthr, if_pos h1, if_neg (by rintro (h | h) <;> linarith),
      if_neg (by rintro (h | h); exacts [k1.1 h, k2.1 h])]
  · intro h1
    simp only [amSolver, hv]
    rw [if_neg hsym, if_neg hneg, if_neg hthr, if_neg (not_lt.2 h1)]

/-- **C117**, `_solve_am`: the same, and the matrices `R` returned with the pairs are rotations up to the error: they preserve
orientation and change the squares of lengths by a factor that differs from one by at most `|1 - λ₂| / λ₁`. -/
theorem C117_solve_am (eig : Mat3 → EigRes) (heig : ∀ A, Aᵀ = A → EigOK (eig A).vals (eig A).vecs A)
    (C : Mat3) (hC : IsSPD C) (l : Fin 3 → ℝ) (hl : SortedEigenvalues C l) (hle : l 0 ≤ 1) (hge : 1 ≤ l 2)
    (h : 1 / 10 ^ 24 ≤ l 2 - l 0) (hli : LinearIndependent ℝ (eig C).vecs) :
    ∃ R₁ b₁ m₁ R₂ b₂ m₂ S, solveAm eig C = .ok (.two (R₁, b₁, m₁) (R₂, b₂, m₂)) ∧
      BestRankOne C |1 - l 1| b₁ m₁ ∧ BestRankOne C |1 - l 1| b₂ m₂ ∧ IsSPD S ∧ S * S = C ∧
      R₁ * S = 1 + vecMulVec b₁ m₁ ∧ 0 < R₁.det ∧ (∀ x, |(R₁ *ᵥ x) ⬝ᵥ (R₁ *ᵥ x) - x ⬝ᵥ x| ≤ |1 - l 1| / l 0 * (x ⬝ᵥ x)) ∧
      R₂ * S = 1 + vecMulVec b₂ m₂ ∧ 0 < R₂.det ∧ (∀ x, |(R₂ *ᵥ x) ⬝ᵥ (R₂ *ᵥ x) - x ⬝ᵥ x| ≤ |1 - l 1| / l 0 * (x ⬝ᵥ x)) ∧
      m₁ ⬝ᵥ m₂ * (l 2 - l 0) = 2 - l 0 - l 2 := by
  obtain ⟨he, hv⟩ := sorted_eq (heig C hC.1) hl
  have hpd := posDefSym_of_spd hC
  have h02 : l 0 < l 2 := by have : (0 : ℝ) < 1 / 10 ^ 24 := by norm_num
                             linarith
  have k1 := core_best (heig C hC.1) hC hl hle hge h02 (s := 1) (by norm_num)
  have k2 := core_best (heig C hC.1) hC hl hle hge h02 (s := -1) (by norm_num)
  have p0 := spd_eigen_pos hC hl.2 0
  have p2 := spd_eigen_pos hC hl.2 2
  have hd : (ofCols (eig C).vecs).det ≠ 0 := by
    have : (ofCols (eig C).vecs)ᵀ = Matrix.of (eig C).vecs := rfl
    rw [← Matrix.det_transpose, this]
    intro h0
    have hrow := (Matrix.linearIndependent_rows_iff_isUnit (A := Matrix.of (eig C).vecs)).1 hli
    rw [Matrix.isUnit_iff_isUnit_det, h0] at hrow
    exact not_isUnit_zero hrow
  obtain ⟨hS, hSS⟩ := eigSqrt_spec hC (heig C hC.1) hd
  have hSd := spd_det_pos hS
  have hu := isUnit_iff_ne_zero.2 hSd.ne'
  have hf := eig_frame hC.1 he (by rw [hv]; exact h02)
  rw [hv] at hf
  have rot : ∀ b m : V3, BestRankOne C |1 - l 1| b m →
      (1 + outer b m) * (eigSqrt (eig C))⁻¹ * eigSqrt (eig C) = 1 + vecMulVec b m ∧
      0 < ((1 + outer b m) * (eigSqrt (eig C))⁻¹).det ∧ ∀ x, |(((1 + outer b m) * (eigSqrt (eig C))⁻¹) *ᵥ x) ⬝ᵥ
        (((1 + outer b m) * (eigSqrt (eig C))⁻¹) *ᵥ x) - x ⬝ᵥ x| ≤ |1 - l 1| / l 0 * (x ⬝ᵥ x) := by
    intro b m hb
    refine ⟨by rw [Matrix.mul_assoc, Matrix.nonsing_inv_mul _ hu, Matrix.mul_one, outer_eq], ?_, fun x => ?_⟩
    · rw [outer_eq, det_mul, det_nonsing_inv, Ring.inverse_eq_inv']
      exact mul_pos hb.orientation (inv_pos.2 hSd)
    · set y := (eigSqrt (eig C))⁻¹ *ᵥ x with hy
      have e1 : eigSqrt (eig C) *ᵥ y = x := by rw [hy, mulVec_mulVec, mul_nonsing_inv _ hu, one_mulVec]
      have e2 : y ⬝ᵥ C *ᵥ y = x ⬝ᵥ x := by
        rw [← hSS, ← mulVec_mulVec, sym_dot hS.1, e1]
      have e3 : l 0 * (y ⬝ᵥ y) ≤ x ⬝ᵥ x := by
        rw [← e2, hf.form, hf.length y]
        have h01 : l 0 ≤ l 1 := hl.1 (by decide)
        nlinarith [pow_two_nonneg ((sortEig eig C).vecs 2 ⬝ᵥ y),
          pow_two_nonneg (((sortEig eig C).vecs 2 ⨯₃ (sortEig eig C).vecs 0) ⬝ᵥ y)]
      have h1 := hb.close y
      rw [lengthError, e2] at h1
      rw [outer_eq, ← mulVec_mulVec, ← hy]
      refine h1.trans ?_
      rw [div_mul_eq_mul_div, le_div_iff₀ p0, mul_assoc]
      refine mul_le_mul_of_nonneg_left ?_ (abs_nonneg _)
      linarith
  obtain ⟨s1, s2, s3⟩ := rot _ _ k1.2
  obtain ⟨t1, t2, t3⟩ := rot _ _ k2.2
  refine ⟨_, _, _, _, _, _, eigSqrt (eig C), ?_, k1.2, k2.2, hS, hSS, s1, s2, s3, t1, t2, t3,
    core_angle (heig C hC.1) hC hl hle hge h02⟩
  simp only [solveAm, hv, abs_of_nonneg (sub_nonneg.2 hle), abs_of_nonneg (sub_nonneg.2 hge)]
  rw [if_neg (not_not.2 hpd), if_neg (by rw [sqrt_lt_small]; exact not_lt.2 h),
    if_neg (by rintro (h | h) <;> linarith), if_neg (by rintro (h | h); exacts [k1.1 h, k2.1 h]),
    if_neg (show ¬ (Matrix.of fun i j => (eig C).vecs j i : Mat3).det = 0 from hd), if_neg hSd.ne']

/-! ## The hypotheses are met -/

/-- The stretches 1/2, 1.05 and 2, for which there is no exact solution, and the error 41/400. -/
example (eig : Mat3 → EigRes) (heig : ∀ A, Aᵀ = A → EigOK (eig A).vals (eig A).vecs A) :
    ∃ b m, ¬ SolvesRankOne (diagonal ![1 / 4, 441 / 400, 4]) b m ∧ BestRankOne (diagonal ![1 / 4, 441 / 400, 4]) (41 / 400) b m := by
  have hC : IsSPD (diagonal ![(1 / 4 : ℝ), 441 / 400, 4]) := spd_diagonal (by intro i; fin_cases i <;> norm_num)
  have hl : SortedEigenvalues (diagonal ![(1 / 4 : ℝ), 441 / 400, 4]) ![1 / 4, 441 / 400, 4] :=
    sorted_diagonal (mono_three (by norm_num) (by norm_num))
  have h2 : (1 : ℝ) / 10 ^ 24 ≤ (![1 / 4, 441 / 400, 4] : Fin 3 → ℝ) 2 - (![1 / 4, 441 / 400, 4] : Fin 3 → ℝ) 0 := by
    show (1 : ℝ) / 10 ^ 24 ≤ 4 - 1 / 4
    norm_num
  obtain ⟨b, m, -, -, -, h, -⟩ := C117_solve_rank1 eig heig _ hC _ hl (by norm_num) (show (1 : ℝ) ≤ 4 by norm_num) h2
  refine ⟨b, m, (C57_no_solution eig heig _ hC _ hl (by norm_num) h2).1 b m, ?_⟩
  have e : |1 - (![1 / 4, 441 / 400, 4] : Fin 3 → ℝ) 1| = 41 / 400 := by norm_num [abs_of_neg]
  rw [e] at h
  exact h

end Verif.Props
