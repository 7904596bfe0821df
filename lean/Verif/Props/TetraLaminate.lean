import Verif.Props.Tetragonal

/-!
# C102: laminates of cubic to tetragonal transformations
-/

namespace Verif.Props

open Matrix Verif.Model Verif.Spec Verif.Lemmas

local notation "Mat3" => Matrix (Fin 3) (Fin 3) ℝ

variable {α γ : ℝ} {t : Tol}

/-! ### The determinant, the trace and the interface condition of a laminate -/

theorem tetraStretch_det (α γ : ℝ) (i : Fin 3) : (tetraStretch α γ i).det = α ^ 2 * γ := by
  rw [tetraStretch, det_diagonal, Fin.prod_univ_three]
  fin_cases i <;> simp <;> first | ring1 | (left; ring1)

theorem tetra_trace_sq (α γ : ℝ) (i : Fin 3) :
    (tetraStretch α γ i * tetraStretch α γ i).trace = 2 * α ^ 2 + γ ^ 2 := by
  rw [tetraStretch, diagonal_mul_diagonal, trace_diagonal, Fin.sum_univ_three]
  fin_cases i <;> simp <;> ring

theorem tetra_det_sub (α γ : ℝ) (i : Fin 3) :
    (tetraStretch α γ i * tetraStretch α γ i - 1).det = (α ^ 2 - 1) ^ 2 * (γ ^ 2 - 1) := by
  rw [tetraStretch, diagonal_mul_diagonal, ← diagonal_one, diagonal_sub, det_diagonal, Fin.prod_univ_three]
  fin_cases i <;> simp <;> ring

theorem tetra_dots {i j : Fin 3} (hij : i ≠ j) {σ τ : ℝ} (hσ : σ = 1 ∨ σ = -1) (hτ : τ = 1 ∨ τ = -1) {a n : V3}
    (ha : a = τ • diagonalShear α γ i j σ) (hn : n = τ • diagonalNormal i j σ) :
    (a i * n i = (α ^ 2 - γ ^ 2) / (α ^ 2 + γ ^ 2) * γ ∧ a j * n j = -((α ^ 2 - γ ^ 2) / (α ^ 2 + γ ^ 2) * α)) ∧
      (a i * a i = 2 * ((α ^ 2 - γ ^ 2) / (α ^ 2 + γ ^ 2)) ^ 2 * γ ^ 2 ∧
        a j * a j = 2 * ((α ^ 2 - γ ^ 2) / (α ^ 2 + γ ^ 2)) ^ 2 * α ^ 2) ∧
      ∀ k, k ≠ i → k ≠ j → a k = 0 := by
  have h2 := root_two
  have h0 : Real.sqrt 2 ≠ 0 := fun h => by rw [h] at h2; norm_num at h2
  have hσσ : σ * σ = 1 := by rcases hσ with rfl | rfl <;> norm_num
  have hττ : τ * τ = 1 := by rcases hτ with rfl | rfl <;> norm_num
  subst ha hn
  set c := (α ^ 2 - γ ^ 2) / (α ^ 2 + γ ^ 2) with hc
  simp only [Pi.smul_apply, smul_eq_mul, diagonalShear, diagonalNormal, if_true, if_neg hij.symm, ← hc]
  refine ⟨⟨?_, ?_⟩, ⟨?_, ?_⟩, fun k h1 h3 => by rw [if_neg h1, if_neg h3]; ring⟩
  · field_simp
    linear_combination (c * γ) * hττ
  · field_simp
    linear_combination -(c * α) * (hττ + τ * τ * hσσ)
  · linear_combination (c ^ 2 * γ ^ 2) * (τ * τ * h2 + 2 * hττ)
  · linear_combination (c ^ 2 * α ^ 2) * (τ * τ * σ * σ * h2 + 2 * (τ * τ) * hσσ + 2 * hττ)

theorem tetra_cof (α γ : ℝ) {i j : Fin 3} (hij : i ≠ j) (a n : V3) (h : ∀ k, k ≠ i → k ≠ j → a k = 0) :
    cofVal (tetraStretch α γ i) a n = γ * (a i * n i) * (α ^ 2 - 1) ^ 2 +
      α * (a j * n j) * ((α ^ 2 - 1) * (γ ^ 2 - 1)) := by
  rw [cofVal_eq, Lemmas.dot3]
  have h0 := h 0
  have h1 := h 1
  have h2 := h 2
  clear h
  fin_cases i <;> fin_cases j <;>
    simp [tetraStretch, adjugate_fin_three, mulVec, dotProduct, Fin.sum_univ_three, diagonal_apply] at hij h0 h1 h2 ⊢ <;>
    first | rw [h0] | rw [h1] | rw [h2]
  all_goals ring

/-- The change of the trace of the metric in a laminate is `-2 f (1 - f)` times this. -/
noncomputable def mixDrop (α γ : ℝ) : ℝ := (α ^ 2 - γ ^ 2) ^ 2 / (α ^ 2 + γ ^ 2)

theorem tetra_laminate (hα : 0 < α) (hγ : 0 < γ) (hne : α ≠ γ) {i j : Fin 3} (hij : i ≠ j) {Q : Mat3} {a n : V3}
    (h : SolvesTwin (tetraStretch α γ i) (tetraStretch α γ j) Q a n) :
    cofVal (tetraStretch α γ i) a n = (α ^ 2 - 1) * mixDrop α γ ∧
    ∀ f : ℝ, interfaceDet (tetraStretch α γ i) a n f =
        (α ^ 2 - 1) * ((α ^ 2 - 1) * (γ ^ 2 - 1) + 2 * f * (1 - f) * mixDrop α γ) ∧
      ((tetraStretch α γ i + f • vecMulVec a n)ᵀ * (tetraStretch α γ i + f • vecMulVec a n)).trace =
        2 * α ^ 2 + γ ^ 2 - 2 * f * (1 - f) * mixDrop α γ ∧
      ((tetraStretch α γ i + f • vecMulVec a n)ᵀ * (tetraStretch α γ i + f • vecMulVec a n)).det =
        α ^ 4 * γ ^ 2 := by
  have hU := tetraStretch_spd hα hγ i
  have hV := tetraStretch_spd hα hγ j
  have hrel := tetraStretch_related (α := α) (γ := γ) hij
  obtain ⟨σ, τ, hσ, hτ, ha, hn⟩ := tetra_solutions hα hγ hne hij h
  obtain ⟨⟨d1, d2⟩, ⟨d3, d4⟩, d5⟩ := tetra_dots hij hσ hτ ha hn
  have hc := tetra_cof α γ hij a n d5
  have hp : 0 < α ^ 2 + γ ^ 2 := by positivity
  rw [d1, d2] at hc
  have hcof : cofVal (tetraStretch α γ i) a n = (α ^ 2 - 1) * mixDrop α γ := by
    rw [hc, mixDrop]
    field_simp
    ring
  obtain ⟨k, hi, hj, -, hs⟩ := third i j hij
  refine ⟨hcof, fun f => ⟨?_, ?_, ?_⟩⟩
  · have h0 : interfaceDet (tetraStretch α γ i) a n 0 = (α ^ 2 - 1) ^ 2 * (γ ^ 2 - 1) := by
      rw [det_eq_zero_frac, tetra_det_sub]
    rw [interface_quadratic hU.1, interface_ends hU.1 hV.1 hrel h, hcof, h0]
    ring
  · rw [laminate_trace hU.1 a h.unit, tetra_trace_sq]
    have e1 : n ⬝ᵥ tetraStretch α γ i *ᵥ a = γ * (a i * n i) + α * (a j * n j) := by
      rw [dotProduct, hs, tetraStretch]
      simp only [mulVec_diagonal, if_true, if_neg hij.symm, if_neg hi, d5 k hi hj]
      ring
    have e2 : a ⬝ᵥ a = a i * a i + a j * a j := by
      rw [dotProduct, hs, d5 k hi hj]
      ring
    rw [e1, e2, d1, d2, d3, d4, mixDrop]
    field_simp
    ring
  · rw [det_mul, det_transpose, laminate_det hU hrel h, tetraStretch_det]
    ring

theorem mixDrop_pos (hα : 0 < α) (hγ : 0 < γ) (hne : α ≠ γ) : 0 < mixDrop α γ := by
  have : α ^ 2 - γ ^ 2 ≠ 0 := by
    have : (α - γ) * (α + γ) ≠ 0 := mul_ne_zero (sub_ne_zero.2 hne) (by positivity)
    intro h
    exact this (by linear_combination h)
  unfold mixDrop
  positivity

/-- Both fractions of the distance `√(fractionOffset α γ)` from 1/2. -/
theorem offset_root (hα : 0 < α) (hγ : 0 < γ) (hne : α ≠ γ) (f : ℝ) :
    (α ^ 2 - 1) * (γ ^ 2 - 1) + 2 * f * (1 - f) * mixDrop α γ = 0 ↔ (f - 1 / 2) ^ 2 = fractionOffset α γ := by
  have hD := mixDrop_pos hα hγ hne
  have hp : 0 < α ^ 2 + γ ^ 2 := by positivity
  have h0 : α ^ 2 - γ ^ 2 ≠ 0 := by
    intro h
    rw [mixDrop, h] at hD
    simp at hD
  have he : (fractionOffset α γ - (f - 1 / 2) ^ 2) * (2 * mixDrop α γ) =
      (α ^ 2 - 1) * (γ ^ 2 - 1) + 2 * f * (1 - f) * mixDrop α γ := by
    rw [fractionOffset, mixDrop]
    field_simp
    ring
  rw [← he, mul_eq_zero, or_iff_left (by positivity), sub_eq_zero, eq_comm]

theorem offset_factor (hα : 0 < α) (hγ : 0 < γ) (hne : α ≠ γ) :
    fractionOffset α γ * (4 * (α ^ 2 - γ ^ 2) ^ 2) = (α ^ 2 + γ ^ 2 - 2) * (2 * (α ^ 2 * γ ^ 2) - (α ^ 2 + γ ^ 2)) := by
  have h0 : α ^ 2 - γ ^ 2 ≠ 0 := by
    intro h
    have hD := mixDrop_pos hα hγ hne
    rw [mixDrop, h] at hD
    simp at hD
  rw [fractionOffset]
  field_simp
  ring

theorem canMeet_iff (hα : 0 < α) (hγ : 0 < γ) (hne : α ≠ γ) (h1 : α ≠ 1) :
    CanMeetParent α γ ↔ 0 ≤ fractionOffset α γ ∧ fractionOffset α γ ≤ 1 / 4 ∧
      0 ≤ (α ^ 2 - 1) * (1 - α ^ 2 * γ ^ 2) := by
  have hfac := offset_factor hα hγ hne
  have hD : α ^ 2 - γ ^ 2 ≠ 0 := by
    intro h
    have hD := mixDrop_pos hα hγ hne
    rw [mixDrop, h] at hD
    simp at hD
  have hle : fractionOffset α γ ≤ 1 / 4 ↔ 0 ≤ (α ^ 2 - 1) * (1 - γ ^ 2) := by
    have hp : 0 < (α ^ 2 + γ ^ 2) / (2 * (α ^ 2 - γ ^ 2) ^ 2) := by positivity
    rw [fractionOffset, mul_div_assoc]
    constructor
    · intro h
      by_contra hc
      have := mul_neg_of_neg_of_pos (not_le.1 hc) hp
      linarith
    · intro h
      have := mul_nonneg h hp.le
      linarith
  have hge : 0 ≤ fractionOffset α γ ↔
      0 ≤ (α ^ 2 + γ ^ 2 - 2) * (2 * (α ^ 2 * γ ^ 2) - (α ^ 2 + γ ^ 2)) := by
    have hp : 0 < 4 * (α ^ 2 - γ ^ 2) ^ 2 := by positivity
    rw [← hfac]
    exact ⟨fun h => mul_nonneg h hp.le, fun h => le_of_mul_le_mul_right (by simpa using h) hp⟩
  rw [hle, hge]
  have e1 : ∀ z : ℝ, 0 < z → (z < 1 ↔ z ^ 2 < 1) := fun z hz =>
    ⟨fun h => by nlinarith, fun h => by nlinarith⟩
  have e2 : ∀ z : ℝ, 0 < z → (1 < z ↔ 1 < z ^ 2) := fun z hz =>
    ⟨fun h => by nlinarith, fun h => by nlinarith⟩
  have h1' : α ^ 2 ≠ 1 := by
    intro h
    exact h1 (by nlinarith [sq_nonneg (α - 1)])
  unfold CanMeetParent
  rw [e1 α hα, e2 γ hγ, e1 γ hγ, e2 α hα]
  have hx : 0 < α ^ 2 := by positivity
  have hy : 0 < γ ^ 2 := by positivity
  have hxy : 0 < (α ^ 2 - γ ^ 2) ^ 2 := by positivity
  clear hfac hle hge e1 e2 hD h1
  generalize α ^ 2 = x at *
  generalize γ ^ 2 = y at *
  have hpos : 0 < x * y := mul_pos hx hy
  have hinv : 1 / x + 1 / y ≤ 2 ↔ x + y ≤ 2 * (x * y) := by
    rw [div_add_div _ _ hx.ne' hy.ne', div_le_iff₀ hpos]
    constructor <;> intro h <;> linarith
  rw [hinv]
  constructor
  · rintro (⟨a, b, c⟩ | ⟨a, b, c⟩)
    · have hp : 1 ≤ x * y := by
        by_contra hc
        push Not at hc
        nlinarith
      have hs : 2 ≤ x + y := by nlinarith
      exact ⟨mul_nonneg (by linarith) (by linarith), by nlinarith, by nlinarith⟩
    · have hp : 2 * (x * y) ≤ x + y := by nlinarith
      refine ⟨mul_nonneg_of_nonpos_of_nonpos (by linarith) (by linarith), by nlinarith, ?_⟩
      exact mul_nonneg (by linarith) (by linarith)
  · rintro ⟨a, b, c⟩
    rcases lt_or_gt_of_ne h1' with h | h
    · left
      have h3 : 1 ≤ x * y := by
        by_contra hc
        push Not at hc
        nlinarith
      have h4 : 1 < y := by nlinarith
      have h5 : 2 < x + y := by nlinarith
      refine ⟨h, h4, ?_⟩
      by_contra hc
      push Not at hc
      nlinarith
    · right
      have h3 : x * y ≤ 1 := by
        by_contra hc
        push Not at hc
        nlinarith
      have h4 : y < 1 := by nlinarith
      refine ⟨h4, h, ?_⟩
      by_contra hc
      push Not at hc
      have h6 : x + y ≤ 2 * (x * y) := by
        by_contra hc'
        push Not at hc'
        nlinarith
      nlinarith

theorem canMeet_strict (hα : 0 < α) (hγ : 0 < γ) (hne : α ≠ γ) (h : CanMeetParent α γ) :
    α ≠ 1 ∧ (α ^ 2 < 1 ∧ 1 < α ^ 2 * γ ^ 2 ∨ α ^ 2 * γ ^ 2 < 1 ∧ 1 < α ^ 2) := by
  have hxy : 0 < (α ^ 2 - γ ^ 2) ^ 2 := by
    have hD := mixDrop_pos hα hγ hne
    have : α ^ 2 - γ ^ 2 ≠ 0 := by
      intro h
      rw [mixDrop, h] at hD
      simp at hD
    positivity
  have hx : 0 < α ^ 2 := by positivity
  have hy : 0 < γ ^ 2 := by positivity
  rcases h with ⟨a, b, c⟩ | ⟨a, b, c⟩
  · have a' : α ^ 2 < 1 := by nlinarith
    refine ⟨a.ne, .inl ⟨a', ?_⟩⟩
    rw [div_add_div _ _ hx.ne' hy.ne', div_le_iff₀ (mul_pos hx hy)] at c
    generalize α ^ 2 = x at *
    generalize γ ^ 2 = y at *
    by_contra hc
    push Not at hc
    have := mul_pos hx hy
    nlinarith
  · have b' : 1 < α ^ 2 := by nlinarith
    refine ⟨b.ne', .inr ⟨?_, b'⟩⟩
    generalize α ^ 2 = x at *
    generalize γ ^ 2 = y at *
    nlinarith

/-! ### Habit planes of the laminates -/

theorem tetra_principal (hα : 0 < α) (hγ : 0 < γ) (hne : α ≠ γ) {i j : Fin 3} (hij : i ≠ j) {Q : Mat3} {a n : V3}
    (h : SolvesTwin (tetraStretch α γ i) (tetraStretch α γ j) Q a n) {f : ℝ}
    (hf : (f - 1 / 2) ^ 2 = fractionOffset α γ) :
    (α ^ 2 < 1 ∧ 1 < α ^ 2 * γ ^ 2 → SortedEigenvalues ((tetraStretch α γ i + f • vecMulVec a n)ᵀ *
      (tetraStretch α γ i + f • vecMulVec a n)) ![α ^ 2, 1, α ^ 2 * γ ^ 2]) ∧
    (α ^ 2 * γ ^ 2 < 1 ∧ 1 < α ^ 2 → SortedEigenvalues ((tetraStretch α γ i + f • vecMulVec a n)ᵀ *
      (tetraStretch α γ i + f • vecMulVec a n)) ![α ^ 2 * γ ^ 2, 1, α ^ 2]) := by
  obtain ⟨-, hl⟩ := tetra_laminate hα hγ hne hij h
  obtain ⟨h1, h2, h3⟩ := hl f
  have hr := (offset_root hα hγ hne f).2 hf
  rw [hr, mul_zero, interfaceDet, ← laminate_metric (tetraStretch_spd hα hγ i).1] at h1
  have key : ∀ x : ℝ, ((tetraStretch α γ i + f • vecMulVec a n)ᵀ *
      (tetraStretch α γ i + f • vecMulVec a n)).charpoly.eval x = (x - α ^ 2) * (x - 1) * (x - α ^ 2 * γ ^ 2) := by
    intro x
    rw [charpoly_eval3, h1, h2, h3]
    linear_combination (x ^ 2 - x) * hr
  constructor
  · rintro ⟨g1, g2⟩
    refine ⟨mono_three g1.le g2.le, Polynomial.funext fun x => ?_⟩
    rw [key, Polynomial.eval_prod, Fin.prod_univ_three]
    simp
  · rintro ⟨g1, g2⟩
    refine ⟨mono_three g1.le g2.le, Polynomial.funext fun x => ?_⟩
    rw [key, Polynomial.eval_prod, Fin.prod_univ_three]
    simp
    ring

theorem tetra_good (hα : 0 < α) (hγ : 0 < γ) (hne : α ≠ γ) {i j : Fin 3} (hij : i ≠ j) {Q : Mat3} {a n : V3}
    (h : SolvesTwin (tetraStretch α γ i) (tetraStretch α γ j) Q a n) {f : ℝ}
    (hf : (f - 1 / 2) ^ 2 = fractionOffset α γ) (hm : CanMeetParent α γ) (h1 : 1 / 10 ^ 24 ≤ |α ^ 2 - 1|) :
    GoodFraction (tetraStretch α γ i) a n f := by
  obtain ⟨s1, s2⟩ := tetra_principal hα hγ hne hij h hf
  rcases (canMeet_strict hα hγ hne hm).2 with g | g
  · refine ⟨_, s1 g, g.1, rfl, g.2, ?_⟩
    rw [abs_of_neg (by linarith)] at h1
    simp only [Matrix.cons_val]
    linarith [g.2]
  · refine ⟨_, s2 g, g.1, rfl, g.2, ?_⟩
    rw [abs_of_pos (by linarith)] at h1
    simp only [Matrix.cons_val]
    linarith [g.1]

theorem habit_of_middle {F : Mat3} (hF : 0 < F.det) {l : Fin 3 → ℝ} (hl : SortedEigenvalues (Fᵀ * F) l)
    (h1 : l 1 = 1) : ∃ b m, HabitPlane F b m := by
  have hr := rankOne_iff (F := 1) (G := F) (l := l) (by simp) (by simpa using hF) (by simpa using hl)
  obtain ⟨P, b, m, hP, hb⟩ := hr.2 h1
  have hb' : P * F = 1 + vecMulVec b m := by rw [← hb]; abel
  by_cases hm : m = 0
  · refine ⟨0, Pi.single 0 1, by simp, P, hP, ?_⟩
    rw [hb', hm]
    simp
  · have hpos : 0 < m ⬝ᵥ m := lt_of_le_of_ne (Finset.sum_nonneg fun i _ => mul_self_nonneg _) fun h => hm (dotProduct_self_eq_zero.1 h.symm)
    have hq := Real.mul_self_sqrt hpos.le
    have hq0 := (Real.sqrt_pos.2 hpos).ne'
    refine ⟨Real.sqrt (m ⬝ᵥ m) • b, (Real.sqrt (m ⬝ᵥ m))⁻¹ • m, ?_, P, hP, ?_⟩
    · rw [smul_dotProduct, dotProduct_smul, smul_eq_mul, smul_eq_mul]
      field_simp
      linear_combination -hq
    · rw [hb', smul_vecMulVec, vecMulVec_smul, smul_smul, mul_inv_cancel₀ hq0, one_smul]

/-- **C102**, the criterion: some laminate of two variants can meet the cubic parent exactly under the condition of Ball
and James (stated without reference to the code). -/
theorem C102_criterion (hα : 0 < α) (hγ : 0 < γ) (hne : α ≠ γ) (h1 : α ≠ 1) {i j : Fin 3} (hij : i ≠ j) {Q : Mat3}
    {a n : V3} (h : SolvesTwin (tetraStretch α γ i) (tetraStretch α γ j) Q a n) :
    (∃ f : ℝ, 0 ≤ f ∧ f ≤ 1 ∧ ∃ b m, HabitPlane (tetraStretch α γ i + f • vecMulVec a n) b m) ↔ CanMeetParent α γ := by
  have hU := tetraStretch_spd hα hγ i
  have hdet : ∀ f : ℝ, 0 < (tetraStretch α γ i + f • vecMulVec a n).det := fun f => by
    rw [laminate_det hU (tetraStretch_related hij) h]
    exact spd_det_pos hU
  have h1' : α ^ 2 - 1 ≠ 0 := by
    intro h
    exact h1 (by nlinarith [sq_nonneg (α - 1)])
  obtain ⟨-, hl⟩ := tetra_laminate hα hγ hne hij h
  obtain ⟨eig, heig⟩ := exists_eig
  constructor
  · rintro ⟨f, hf0, hf1, b, m, hb⟩
    obtain ⟨g1, g2, g3⟩ := hl f
    have hs := sortEig_spec (heig _ (gram_symm (tetraStretch α γ i + f • vecMulVec a n)))
    have hS : SortedEigenvalues _ _ := ⟨hs.2, hs.1.eigenvalues⟩
    have hmid : (sortEig eig ((tetraStretch α γ i + f • vecMulVec a n)ᵀ *
        (tetraStretch α γ i + f • vecMulVec a n))).vals 1 = 1 := by
      have hS' := hS
      rw [← (habit_rankOne (hdet f) hb).1.2] at hS'
      have := mid_one hS'
      rwa [(habit_rankOne (hdet f) hb).1.2] at this
    have hz : interfaceDet (tetraStretch α γ i) a n f = 0 := by
      have := charpoly_three hS.2 1
      rw [hmid, sub_self, mul_zero, zero_mul, one_smul, ← neg_sub, det_neg] at this
      rw [interfaceDet, ← laminate_metric hU.1]
      simpa using this
    have hc := (C70_middle _ hU.1 a n f _ hS hz).1 hmid
    rw [g1] at hz
    have hr := (mul_eq_zero.1 hz).resolve_left h1'
    have ho := (offset_root hα hγ hne f).1 hr
    rw [g2, g3] at hc
    rw [canMeet_iff hα hγ hne h1, ← ho]
    refine ⟨sq_nonneg _, by nlinarith, ?_⟩
    linear_combination hc - hr
  · intro hm
    obtain ⟨c1, c2, -⟩ := (canMeet_iff hα hγ hne h1).1 hm
    have hq := Real.sq_sqrt c1
    have hq0 := Real.sqrt_nonneg (fractionOffset α γ)
    have hf : (laminateFraction α γ - 1 / 2) ^ 2 = fractionOffset α γ := by
      rw [laminateFraction]
      linear_combination hq
    refine ⟨laminateFraction α γ, ?_, ?_, ?_⟩
    · rw [laminateFraction]; linarith
    · rw [laminateFraction]; nlinarith
    · obtain ⟨s1, s2⟩ := tetra_principal hα hγ hne hij h hf
      rcases (canMeet_strict hα hγ hne hm).2 with g | g
      · exact habit_of_middle (hdet _) (s1 g) rfl
      · exact habit_of_middle (hdet _) (s2 g) rfl

/-! ### The fractions found by the code -/

theorem tetra_solveF (hα : 0 < α) (hγ : 0 < γ) (hne : α ≠ γ) {i j : Fin 3} (hij : i ≠ j) {Q : Mat3} {a n : V3}
    (h : SolvesTwin (tetraStretch α γ i) (tetraStretch α γ j) Q a n)
    (hs : 1 / 10 ^ 12 ≤ 2 * |α ^ 2 - 1| * mixDrop α γ) :
    (fractionOffset α γ ≤ 0 ∨ 1 + 1 / 10 ^ 6 ≤ laminateFraction α γ → solveF (tetraStretch α γ i) a n = none) ∧
    (0 < fractionOffset α γ → laminateFraction α γ ≤ 1 - 1 / 10 ^ 6 →
      solveF (tetraStretch α γ i) a n = some (laminateFraction α γ)) := by
  classical
  have hD := mixDrop_pos hα hγ hne
  obtain ⟨hcof, -⟩ := tetra_laminate hα hγ hne hij h
  have h1' : α ^ 2 - 1 ≠ 0 := by
    intro h
    rw [h, abs_zero, mul_zero, zero_mul] at hs
    norm_num at hs
  have hp : 0 < α ^ 2 + γ ^ 2 := by positivity
  have h0 : α ^ 2 - γ ^ 2 ≠ 0 := by
    intro h
    rw [mixDrop, h] at hD
    simp at hD
  have hb : ((α ^ 2 - 1) ^ 2 * (γ ^ 2 - 1) + 2 * ((α ^ 2 - 1) * mixDrop α γ) / 4) /
      (2 * ((α ^ 2 - 1) * mixDrop α γ)) = fractionOffset α γ := by
    rw [fractionOffset, mixDrop]
    field_simp
    ring
  have hsm : ¬ |2 * ((α ^ 2 - 1) * mixDrop α γ)| < small := by
    rw [abs_mul, abs_mul, abs_of_pos hD, abs_two, not_lt, small]
    linarith
  have hf0 : 1 / 2 ≤ laminateFraction α γ := by
    rw [laminateFraction]
    linarith [Real.sqrt_nonneg (fractionOffset α γ)]
  have hf : laminateFraction α γ = 1 / 2 + Real.sqrt (fractionOffset α γ) := rfl
  unfold solveF
  simp only [hcof, tetra_det_sub, hb, if_neg hsm, ← hf]
  constructor
  · rintro (ho | ho)
    · rw [if_neg (not_lt.2 ho)]
    · split_ifs with g1 g2 g3 g4
      · exact absurd g2 (not_lt.2 (by rw [le_abs]; right; linarith))
      · exact absurd g3 (not_lt.2 (by rw [le_abs]; left; linarith))
      · linarith [g4.2]
      · rfl
      · rfl
  · intro ho h1
    rw [if_pos ho, if_neg (not_lt.2 (by rw [le_abs]; left; linarith)),
      if_neg (not_lt.2 (by rw [le_abs]; left; linarith)), if_pos ⟨by linarith, by linarith⟩]

theorem tetra_volumeFrac (eig : Mat3 → EigRes) (heig : ∀ A, Aᵀ = A → EigOK (eig A).vals (eig A).vecs A)
    (ht : t = .code ∨ t = .exact) (h : ClearlyTetragonal α γ) {i j : Fin 3} (hij : i ≠ j) (skip : Bool)
    (hs : 1 / 10 ^ 12 ≤ 2 * |α ^ 2 - 1| * mixDrop α γ) :
    ∃ p Q₁ a₁ n₁ Q₂ a₂ n₂, TwinPair.new eig (tetraStretch α γ i) (tetraStretch α γ j) skip = .ok p ∧
      p.Ui = tetraStretch α γ i ∧
      p.twinParam eig t id false = .ok (some (some (Q₁, a₁, n₁), some (Q₂, a₂, n₂))) ∧
      SolvesTwin (tetraStretch α γ i) (tetraStretch α γ j) Q₁ a₁ n₁ ∧
      SolvesTwin (tetraStretch α γ i) (tetraStretch α γ j) Q₂ a₂ n₂ ∧
      (fractionOffset α γ ≤ 0 ∨ 1 + 1 / 10 ^ 6 ≤ laminateFraction α γ →
        p.volumeFrac eig t id false = .ok (none, none)) ∧
      (0 < fractionOffset α γ → laminateFraction α γ ≤ 1 - 1 / 10 ^ 6 →
        p.volumeFrac eig t id false = .ok (some (laminateFraction α γ), some (laminateFraction α γ))) := by
  obtain ⟨hα, hγ⟩ := clearly_pos h
  have hne := clearly_ne h
  obtain ⟨p, Q₁, Q₂, σ, τ₁, τ₂, hp, -, -, -, -, -, -, htp, hsol⟩ := C101_twins eig heig ht id h hij skip
  obtain ⟨h1, h2⟩ := hsol rfl
  have hU : p.Ui = tetraStretch α γ i := by
    rw [new_ok eig (tetraStretch_spd hα hγ i) (tetraStretch_spd hα hγ j)] at hp
    cases hp
    rfl
  have f1 := tetra_solveF hα hγ hne hij h1 hs
  have f2 := tetra_solveF hα hγ hne hij h2 hs
  refine ⟨p, Q₁, _, _, Q₂, _, _, hp, hU, htp, h1, h2, fun ho => ?_, fun ho hl => ?_⟩
  · unfold TwinPair.volumeFrac
    simp only [htp, hU, fracOf]
    rw [← f1.1 ho]
    nth_rewrite 2 [f1.1 ho]
    rw [← f2.1 ho]
    rfl
  · unfold TwinPair.volumeFrac
    simp only [htp, hU, fracOf]
    congr 2
    · exact f1.2 ho hl
    · exact f2.2 ho hl

theorem mixDrop_large (h : ClearlyTetragonal α γ) (hm : 1 < α ∨ 1 < γ) : 1 / 10 ^ 8 ≤ mixDrop α γ := by
  obtain ⟨hα, hγ⟩ := clearly_pos h
  have hp : 0 < α ^ 2 + γ ^ 2 := by positivity
  rw [mixDrop, le_div_iff₀ hp]
  have key : ∀ x y : ℝ, 0 < x → 0 < y → y ≤ (1 - 1 / 10 ^ 4) * x → (1 < x ∨ 1 < y) →
      1 / 10 ^ 8 * (x ^ 2 + y ^ 2) ≤ (x ^ 2 - y ^ 2) ^ 2 := by
    intro x y hx hy hxy h1
    have hx1 : 1 < x := by
      rcases h1 with h1 | h1
      · exact h1
      · nlinarith
    have hle : y ^ 2 ≤ (1 - 1 / 10 ^ 4) ^ 2 * x ^ 2 := by
      rw [← mul_pow]
      exact pow_le_pow_left₀ hy.le hxy 2
    have hX : 1 < x ^ 2 := by nlinarith
    generalize x ^ 2 = X at *
    generalize y ^ 2 = Y at *
    have hu : 1 / 10 ^ 4 * X ≤ X - Y := by nlinarith
    have hu' : 1 / 10 ^ 4 * X * (19 / 10) ≤ X - Y := by nlinarith
    have := mul_self_le_mul_self (by positivity) hu'
    nlinarith
  obtain ⟨-, -, h | h⟩ := h
  · exact key α γ hα hγ h.1 hm
  · have := key γ α hγ hα h.1 hm.symm
    linarith

theorem compat_fracs {eig : Mat3 → EigRes} {p : TwinPair} {f g : Option ℝ} {t : Tol}
    (h : p.volumeFrac eig t id false = .ok (f, g)) (hfg : f.isSome = g.isSome) {ty : TwinType} (hty : ty ≠ .other) :
    p.isCompat eig t id false ty = .ok f.isSome := by
  unfold TwinPair.isCompat
  cases ty
  case other => exact absurd rfl hty
  all_goals simp only [h, ← hfg, Bool.or_self]

/-- **C102**, habit planes: under the condition of Ball and James (with a fraction that differs from 1/2 and, by more
than the tolerance, from 1, and `α` not too close to 1) `volumefrac()` returns the fraction given by the closed formula
for both twins, `iscompatible()` is true, and `habitplanes()` returns eight triples: exactly the habit planes of the
laminates of the first twin with the fractions `f` and `1 - f` and of those of the second one (up to the common sign of
shear and normal).  Rounding in `twinparam()` is left out. -/
theorem C102_habitplanes_partial (eig : Mat3 → EigRes)
    (heig : ∀ A, Aᵀ = A → EigOK (eig A).vals (eig A).vecs A) (ht : t = .code ∨ t = .exact)
    (h : ClearlyTetragonal α γ) (hm : CanMeetParent α γ) (hα1 : 1 / 10 ^ 4 ≤ |α ^ 2 - 1|)
    (hf : laminateFraction α γ ≠ 1 / 2) (hf1 : laminateFraction α γ ≤ 1 - 1 / 10 ^ 6) {i j : Fin 3} (hij : i ≠ j)
    (skip : Bool) :
    ∃ p Q₁ a₁ n₁ Q₂ a₂ n₂, TwinPair.new eig (tetraStretch α γ i) (tetraStretch α γ j) skip = .ok p ∧
      p.twinParam eig t id false = .ok (some (some (Q₁, a₁, n₁), some (Q₂, a₂, n₂))) ∧
      SolvesTwin (tetraStretch α γ i) (tetraStretch α γ j) Q₁ a₁ n₁ ∧
      SolvesTwin (tetraStretch α γ i) (tetraStretch α γ j) Q₂ a₂ n₂ ∧
      p.volumeFrac eig t id false = .ok (some (laminateFraction α γ), some (laminateFraction α γ)) ∧
      ∀ ty, ty ≠ .other → p.isCompat eig t id false ty = .ok true ∧
        ∃ x₁ y₁ x₂ y₂ x₃ y₃ x₄ y₄,
          p.habitPlanes eig t id false ty = .ok [x₁, y₁, x₂, y₂, x₃, y₃, x₄, y₄] ∧
          AllHabits (tetraStretch α γ i + laminateFraction α γ • vecMulVec a₁ n₁) x₁ y₁ ∧
          AllHabits (tetraStretch α γ i + (1 - laminateFraction α γ) • vecMulVec a₁ n₁) x₂ y₂ ∧
          AllHabits (tetraStretch α γ i + laminateFraction α γ • vecMulVec a₂ n₂) x₃ y₃ ∧
          AllHabits (tetraStretch α γ i + (1 - laminateFraction α γ) • vecMulVec a₂ n₂) x₄ y₄ := by
  obtain ⟨hα, hγ⟩ := clearly_pos h
  have hne := clearly_ne h
  have hD := mixDrop_large h (by rcases hm with h | h; exacts [.inr h.2.1, .inl h.2.1])
  have hs : 1 / 10 ^ 12 ≤ 2 * |α ^ 2 - 1| * mixDrop α γ := by
    have := mul_le_mul hα1 hD (by norm_num) (abs_nonneg _)
    norm_num at this ⊢
    linarith
  obtain ⟨p, Q₁, a₁, n₁, Q₂, a₂, n₂, hp, hU, htp, h1, h2, -, hvf⟩ := tetra_volumeFrac eig heig ht h hij skip hs
  obtain ⟨c1, c2, -⟩ := (canMeet_iff hα hγ hne (canMeet_strict hα hγ hne hm).1).1 hm
  have hpos : 0 < fractionOffset α γ := by
    refine lt_of_le_of_ne c1 fun h0 => hf ?_
    rw [laminateFraction, ← h0, Real.sqrt_zero, add_zero]
  have hv := hvf hpos hf1
  have hroot : (laminateFraction α γ - 1 / 2) ^ 2 = fractionOffset α γ := by
    have hq := Real.sq_sqrt c1
    rw [laminateFraction]
    linear_combination hq
  have hbig : 1 / 10 ^ 24 ≤ |α ^ 2 - 1| := le_trans (by norm_num) hα1
  refine ⟨p, Q₁, a₁, n₁, Q₂, a₂, n₂, hp, htp, h1, h2, hv, fun ty hty => ⟨compat_fracs hv rfl hty, ?_⟩⟩
  rw [← hU] at h1 h2 ⊢
  exact C70_habitplanes_partial eig heig t id false p _ Q₁ Q₂ a₁ n₁ a₂ n₂ _ _
    (by rw [hU]; exact tetraStretch_spd hα hγ i) (tetraStretch_spd hα hγ j)
    (by rw [hU]; exact tetraStretch_related hij) htp h1 h2 hv
    (by rw [hU] at h1 ⊢; exact tetra_good hα hγ hne hij h1 hroot hm hbig)
    (by rw [hU] at h2 ⊢; exact tetra_good hα hγ hne hij h2 hroot hm hbig) ty hty

/-- **C102**, no fraction: if no volume fraction gives the laminate a stretch equal to one (or only fractions clearly
outside of `[0, 1]`), or the only such fraction is 1/2, `volumefrac()` returns two `None`, `iscompatible()` is false and
`habitplanes()` raises `AttributeError`. -/
theorem C102_no_fraction (eig : Mat3 → EigRes) (heig : ∀ A, Aᵀ = A → EigOK (eig A).vals (eig A).vecs A)
    (ht : t = .code ∨ t = .exact) (h : ClearlyTetragonal α γ)
    (hs : 1 / 10 ^ 12 ≤ 2 * |α ^ 2 - 1| * ((α ^ 2 - γ ^ 2) ^ 2 / (α ^ 2 + γ ^ 2)))
    (hf : fractionOffset α γ ≤ 0 ∨ 1 + 1 / 10 ^ 6 ≤ laminateFraction α γ) {i j : Fin 3} (hij : i ≠ j) (skip : Bool) :
    ∃ p, TwinPair.new eig (tetraStretch α γ i) (tetraStretch α γ j) skip = .ok p ∧
      p.volumeFrac eig t id false = .ok (none, none) ∧
      ∀ ty, ty ≠ .other → p.isCompat eig t id false ty = .ok false ∧
        p.habitPlanes eig t id false ty = .error .attributeError := by
  obtain ⟨p, -, -, -, -, -, -, hp, -, -, -, -, hv, -⟩ := tetra_volumeFrac eig heig ht h hij skip hs
  refine ⟨p, hp, hv hf, fun ty hty => ⟨compat_fracs (hv hf) rfl hty, ?_⟩⟩
  have hC := compat_fracs (ty := .C) (hv hf) rfl (by simp)
  unfold TwinPair.habitPlanes
  cases ty
  case other => exact absurd rfl hty
  all_goals simp only [hC, Option.isSome_none]

/-- **C102** fails where the stretch equal to one is not the middle one: then `iscompatible()` is true and
`volumefrac()` returns a fraction although no laminate of the two variants can meet the parent. -/
theorem C102_not_middle_fails (eig : Mat3 → EigRes) (heig : ∀ A, Aᵀ = A → EigOK (eig A).vals (eig A).vecs A)
    (ht : t = .code ∨ t = .exact) (h : ClearlyTetragonal α γ)
    (hs : 1 / 10 ^ 12 ≤ 2 * |α ^ 2 - 1| * ((α ^ 2 - γ ^ 2) ^ 2 / (α ^ 2 + γ ^ 2)))
    (hm : ¬ CanMeetParent α γ) (hf : 0 < fractionOffset α γ) (hf1 : laminateFraction α γ ≤ 1 - 1 / 10 ^ 6)
    {i j : Fin 3} (hij : i ≠ j) (skip : Bool) :
    ∃ p, TwinPair.new eig (tetraStretch α γ i) (tetraStretch α γ j) skip = .ok p ∧
      p.volumeFrac eig t id false = .ok (some (laminateFraction α γ), some (laminateFraction α γ)) ∧
      (∀ ty, ty ≠ .other → p.isCompat eig t id false ty = .ok true) ∧
      ∀ Q a n, SolvesTwin (tetraStretch α γ i) (tetraStretch α γ j) Q a n →
        ∀ f : ℝ, 0 ≤ f → f ≤ 1 → ∀ b m, ¬ HabitPlane (tetraStretch α γ i + f • vecMulVec a n) b m := by
  obtain ⟨hα, hγ⟩ := clearly_pos h
  have h1 : α ≠ 1 := by
    rintro rfl
    norm_num at hs
  obtain ⟨p, -, -, -, -, -, -, hp, -, -, -, -, -, hv⟩ := tetra_volumeFrac eig heig ht h hij skip hs
  refine ⟨p, hp, hv hf hf1, fun ty hty => compat_fracs (hv hf hf1) rfl hty, fun Q a n hq f f0 f1 b m hb => hm ?_⟩
  exact (C102_criterion hα hγ (clearly_ne h) h1 hij hq).1 ⟨f, f0, f1, b, m, hb⟩

-- the stretches of an indium-thallium alloy meet the hypotheses
example : ClearlyTetragonal 0.9889 1.0221 ∧ CanMeetParent 0.9889 1.0221 ∧ 1 / 10 ^ 4 ≤ |(0.9889 : ℝ) ^ 2 - 1| ∧
    laminateFraction 0.9889 1.0221 ≠ 1 / 2 ∧ laminateFraction 0.9889 1.0221 ≤ 1 - 1 / 10 ^ 6 := by
  have h1 : 0 < fractionOffset 0.9889 1.0221 := by rw [fractionOffset]; norm_num
  have h2 : fractionOffset 0.9889 1.0221 ≤ (2 / 5) ^ 2 := by rw [fractionOffset]; norm_num
  refine ⟨by norm_num [ClearlyTetragonal], by norm_num [CanMeetParent], by rw [abs_of_neg] <;> norm_num, ?_, ?_⟩
  · rw [laminateFraction]
    linarith [Real.sqrt_pos.2 h1]
  · have := Real.sqrt_le_sqrt h2
    rw [Real.sqrt_sq (by norm_num)] at this
    rw [laminateFraction]
    norm_num at this ⊢
    linarith

-- two stretches above 1
example : ClearlyTetragonal 2 (3 / 2) ∧
    1 / 10 ^ 12 ≤ 2 * |(2 : ℝ) ^ 2 - 1| * ((2 ^ 2 - (3 / 2) ^ 2) ^ 2 / (2 ^ 2 + (3 / 2) ^ 2)) ∧
    1 + 1 / 10 ^ 6 ≤ laminateFraction 2 (3 / 2) := by
  have h2 : (1 : ℝ) ^ 2 ≤ fractionOffset 2 (3 / 2) := by rw [fractionOffset]; norm_num
  refine ⟨by norm_num [ClearlyTetragonal], by norm_num [abs_of_pos], ?_⟩
  have := Real.sqrt_le_sqrt h2
  rw [Real.sqrt_sq (by norm_num)] at this
  rw [laminateFraction]
  norm_num
  linarith

-- a large tetragonal distortion
example : ClearlyTetragonal (1 / 3) (4 / 3) ∧
    1 / 10 ^ 12 ≤ 2 * |(1 / 3 : ℝ) ^ 2 - 1| * (((1 / 3) ^ 2 - (4 / 3) ^ 2) ^ 2 / ((1 / 3) ^ 2 + (4 / 3) ^ 2)) ∧
    ¬ CanMeetParent (1 / 3) (4 / 3) ∧ 0 < fractionOffset (1 / 3) (4 / 3) ∧
    laminateFraction (1 / 3) (4 / 3) = 28 / 45 := by
  have h1 : fractionOffset (1 / 3) (4 / 3) = (11 / 90) ^ 2 := by rw [fractionOffset]; norm_num
  refine ⟨by norm_num [ClearlyTetragonal], by norm_num [abs_of_neg], by norm_num [CanMeetParent], ?_, ?_⟩
  · rw [h1]; norm_num
  · rw [laminateFraction, h1, Real.sqrt_sq (by norm_num)]
    norm_num

end Verif.Props
