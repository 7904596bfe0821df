import Verif.Props.HabitAccuracy

/-!
# `habitplanes()` misses no habit plane, in spite of the rounding

C118: a plane on which the laminate nearly meets the parent is near to one of the two planes returned for it.
-/

namespace Verif.Props

open Matrix Verif.Model Verif.Spec Verif.Lemmas

local notation "Mat3" => Matrix (Fin 3) (Fin 3) ℝ

variable {U V W : Mat3} {t : Tol}

/-! ### planes on which a product of two linear forms is small -/

/-- the square of the length of the cross product -/
theorem cross_sq (a b : V3) : (a ⨯₃ b) ⬝ᵥ (a ⨯₃ b) = (a ⬝ᵥ a) * (b ⬝ᵥ b) - (a ⬝ᵥ b) ^ 2 := by
  simp only [dot3, cross_apply]
  simp
  ring

/-- the square of a triple product is the determinant of Gram -/
theorem triple_sq (u a m : V3) : (u ⬝ᵥ (a ⨯₃ m)) ^ 2 = (u ⬝ᵥ u) * ((a ⬝ᵥ a) * (m ⬝ᵥ m) - (a ⬝ᵥ m) ^ 2) -
    (u ⬝ᵥ a) * ((u ⬝ᵥ a) * (m ⬝ᵥ m) - (a ⬝ᵥ m) * (u ⬝ᵥ m)) + (u ⬝ᵥ m) * ((u ⬝ᵥ a) * (a ⬝ᵥ m) - (a ⬝ᵥ a) * (u ⬝ᵥ m)) := by
  simp only [dot3, cross_apply]
  simp
  ring

/-- the product of two linear forms on the unit sphere -/
theorem product_le {u m x : V3} (hm : m ⬝ᵥ m = 1) (hx : x ⬝ᵥ x = 1) : (2 * ((u ⬝ᵥ x) * (m ⬝ᵥ x)) - u ⬝ᵥ m) ^ 2 ≤ u ⬝ᵥ u := by
  have h := cauchy3 u ((2 * (m ⬝ᵥ x)) • x - m)
  have e1 : u ⬝ᵥ ((2 * (m ⬝ᵥ x)) • x - m) = 2 * ((u ⬝ᵥ x) * (m ⬝ᵥ x)) - u ⬝ᵥ m := by
    rw [dotProduct_sub, dotProduct_smul, smul_eq_mul]
    ring
  have e2 : ((2 * (m ⬝ᵥ x)) • x - m) ⬝ᵥ ((2 * (m ⬝ᵥ x)) • x - m) = 1 := by
    simp only [dotProduct_sub, sub_dotProduct, dotProduct_smul, smul_dotProduct, smul_eq_mul, hm, hx, dotProduct_comm x m]
    ring
  rwa [e1, e2, mul_one] at h

/-- a product of two linear forms that takes both signs: the planes on which it vanishes are apart -/
theorem product_apart {u m p q : V3} {γ : ℝ} (hγ : 0 < γ) (hm : m ⬝ᵥ m = 1) (hp : p ⬝ᵥ p = 1) (hq : q ⬝ᵥ q = 1)
    (h1 : (u ⬝ᵥ p) * (m ⬝ᵥ p) ≤ -γ) (h2 : γ ≤ (u ⬝ᵥ q) * (m ⬝ᵥ q)) : 4 * γ ^ 2 ≤ u ⬝ᵥ u - (u ⬝ᵥ m) ^ 2 := by
  have a1 := product_le (u := u) hm hp
  have a2 := product_le (u := u) hm hq
  generalize (u ⬝ᵥ p) * (m ⬝ᵥ p) = x at *
  generalize (u ⬝ᵥ q) * (m ⬝ᵥ q) = y at *
  generalize u ⬝ᵥ m = c at *
  rcases le_total 0 c with hc | hc
  · nlinarith [mul_nonneg hc hγ.le]
  · nlinarith [mul_nonneg (neg_nonneg.2 hc) hγ.le]

/-- on the plane with the normal `m₁` the product of two linear forms is small only if one of them is nearly a multiple of `m₁` -/
theorem product_small {u m m₁ : V3} {ε : ℝ} (h1 : m₁ ⬝ᵥ m₁ = 1) (hε : 0 ≤ ε)
    (h : ∀ x, m₁ ⬝ᵥ x = 0 → |(u ⬝ᵥ x) * (m ⬝ᵥ x)| ≤ ε * (x ⬝ᵥ x)) :
    ((u ⨯₃ m₁) ⬝ᵥ (u ⨯₃ m₁)) * ((m ⨯₃ m₁) ⬝ᵥ (m ⨯₃ m₁)) ≤ 5 * ε ^ 2 := by
  set x : V3 := m - (m₁ ⬝ᵥ m) • m₁ with hx
  set y : V3 := m₁ ⨯₃ m with hy
  set B := (m ⨯₃ m₁) ⬝ᵥ (m ⨯₃ m₁) with hB
  have eB : B = m ⬝ᵥ m - (m₁ ⬝ᵥ m) ^ 2 := by
    rw [hB, cross_sq, h1, mul_one, dotProduct_comm m m₁]
  have B0 : 0 ≤ B := self_nonneg _
  have px : m₁ ⬝ᵥ x = 0 := by rw [hx, dotProduct_sub, dotProduct_smul, h1, smul_eq_mul]; ring
  have py : m₁ ⬝ᵥ y = 0 := cross_orth _ _
  have nx : x ⬝ᵥ x = B := by
    rw [eB, hx]
    simp only [dotProduct_sub, sub_dotProduct, dotProduct_smul, smul_dotProduct, smul_eq_mul, h1, dotProduct_comm m m₁]
    ring
  have ny : y ⬝ᵥ y = B := by rw [eB, hy, cross_sq, h1, one_mul]
  have mx : m ⬝ᵥ x = B := by
    rw [eB, hx, dotProduct_sub, dotProduct_smul, smul_eq_mul, dotProduct_comm m m₁]; ring
  have my : m ⬝ᵥ y = 0 := by
    rw [hy, dot3]; simp [cross_apply]; ring
  have xy : x ⬝ᵥ y = 0 := by
    rw [hx, sub_dotProduct, smul_dotProduct, my, py, smul_zero, sub_zero]
  have a0 := h x px
  have a1 := h (x + y) (by rw [dotProduct_add, px, py, add_zero])
  have a2 := h (x - y) (by rw [dotProduct_sub, px, py, sub_zero])
  have key : (u ⨯₃ m₁) ⬝ᵥ (u ⨯₃ m₁) * B = (u ⬝ᵥ x) ^ 2 + (u ⬝ᵥ y) ^ 2 := by
    have e1 : u ⬝ᵥ x = u ⬝ᵥ m - (m₁ ⬝ᵥ m) * (m₁ ⬝ᵥ u) := by
      rw [hx, dotProduct_sub, dotProduct_smul, smul_eq_mul, dotProduct_comm u m₁]
    have e2 := triple_sq u m₁ m
    rw [h1] at e2
    rw [eB, e1, cross_sq, h1, mul_one, hy, e2, dotProduct_comm u m₁]
    ring
  rw [key]
  rcases B0.eq_or_lt with hB0 | hB0
  · have x0 : x = 0 := dotProduct_self_eq_zero.1 (nx.trans hB0.symm)
    have y0 : y = 0 := dotProduct_self_eq_zero.1 (ny.trans hB0.symm)
    rw [x0, y0]
    simp
    positivity
  · have n1 : (x + y) ⬝ᵥ (x + y) = 2 * B := by
      simp only [dotProduct_add, add_dotProduct, dotProduct_comm y x, nx, ny, xy]; ring
    have n2 : (x - y) ⬝ᵥ (x - y) = 2 * B := by
      simp only [dotProduct_sub, sub_dotProduct, dotProduct_comm y x, nx, ny, xy]; ring
    rw [mx, nx, abs_mul, abs_of_pos hB0] at a0
    rw [n1, dotProduct_add, dotProduct_add, mx, my, add_zero, abs_mul, abs_of_pos hB0] at a1
    rw [n2, dotProduct_sub u x y, dotProduct_sub m x y, mx, my, sub_zero, abs_mul, abs_of_pos hB0] at a2
    have b0 := abs_le.1 (le_of_mul_le_mul_right a0 hB0)
    have b1 := abs_le.1 (le_of_mul_le_mul_right (a1.trans_eq (by ring : ε * (2 * B) = 2 * ε * B)) hB0)
    have b2 := abs_le.1 (le_of_mul_le_mul_right (a2.trans_eq (by ring : ε * (2 * B) = 2 * ε * B)) hB0)
    have c0 := sq_le_sq' b0.1 b0.2
    have c1 : (u ⬝ᵥ y) ^ 2 ≤ (2 * ε) ^ 2 := sq_le_sq' (by linarith) (by linarith)
    linarith

/-- vectors nearly parallel to the same unit vector are nearly parallel to each other -/
theorem cross_near {u m m₁ : V3} (hm : m ⬝ᵥ m = 1) (h1 : m₁ ⬝ᵥ m₁ = 1) :
    (u ⨯₃ m) ⬝ᵥ (u ⨯₃ m) ≤ 3 * (u ⬝ᵥ u) * ((m ⨯₃ m₁) ⬝ᵥ (m ⨯₃ m₁)) + 3 * ((u ⨯₃ m₁) ⬝ᵥ (u ⨯₃ m₁)) := by
  have e2 := triple_sq u m₁ m
  have e3 := sq_nonneg (u ⬝ᵥ (m₁ ⨯₃ m))
  have c1 := cauchy3 u m₁
  have c2 := cauchy3 u m
  have c3 := cauchy3 m m₁
  have p := self_nonneg u
  rw [e2] at e3
  rw [cross_sq, cross_sq, cross_sq]
  simp only [hm, h1, mul_one, one_mul, dotProduct_comm m₁ m, dotProduct_comm m₁ u] at *
  generalize u ⬝ᵥ u = w at *
  generalize u ⬝ᵥ m = a at *
  generalize u ⬝ᵥ m₁ = b at *
  generalize m ⬝ᵥ m₁ = c at *
  have hr : (a - b * c) ^ 2 ≤ (w - b ^ 2) * (1 - c ^ 2) := by nlinarith
  have hA : 0 ≤ w - b ^ 2 := by linarith
  have hB : 0 ≤ 1 - c ^ 2 := by linarith
  have ht : |2 * (b * c * (a - b * c))| ≤ b ^ 2 * (1 - c ^ 2) + c ^ 2 * (w - b ^ 2) := by
    refine abs_le_of_sq_le_sq ?_ (by positivity)
    have t1 := mul_le_mul_of_nonneg_left hr (by positivity : 0 ≤ 4 * (b ^ 2 * c ^ 2))
    have t2 := sq_nonneg (b ^ 2 * (1 - c ^ 2) - c ^ 2 * (w - b ^ 2))
    linarith
  have ht' := (abs_le.1 ht).1
  have t3 := mul_nonneg hA hB
  have t4 := mul_nonneg hA (sq_nonneg c)
  nlinarith [sq_nonneg (a - b * c)]

/-- a plane on which the product of two linear forms is small is near to one of the planes on which it vanishes -/
theorem either_near {u m m₁ : V3} {ε γ : ℝ} (hε : 0 ≤ ε) (hm : m ⬝ᵥ m = 1) (hw : 0 < u ⬝ᵥ u) (hu : 4 * γ ^ 2 ≤ u ⬝ᵥ u - (u ⬝ᵥ m) ^ 2)
    (h1 : m₁ ⬝ᵥ m₁ = 1) (k1 : ∀ x, m₁ ⬝ᵥ x = 0 → |(u ⬝ᵥ x) * (m ⬝ᵥ x)| ≤ ε * (x ⬝ᵥ x)) :
    ((m ⨯₃ m₁) ⬝ᵥ (m ⨯₃ m₁)) * γ ^ 2 ≤ 15 * ε ^ 2 ∨ ((u ⨯₃ m₁) ⬝ᵥ (u ⨯₃ m₁)) * γ ^ 2 ≤ 5 * ε ^ 2 * (u ⬝ᵥ u) := by
  have a1 := product_small h1 hε k1
  have a2 := cross_near (u := u) hm h1
  rw [cross_sq u m, hm, mul_one] at a2
  have A0 := self_nonneg (u ⨯₃ m₁)
  have B0 := self_nonneg (m ⨯₃ m₁)
  generalize (u ⨯₃ m₁) ⬝ᵥ (u ⨯₃ m₁) = A at *
  generalize (m ⨯₃ m₁) ⬝ᵥ (m ⨯₃ m₁) = B at *
  rcases le_total (γ ^ 2) (3 * A) with h | h
  · left
    have := mul_le_mul_of_nonneg_left h B0
    linarith
  · right
    have h' : γ ^ 2 ≤ u ⬝ᵥ u * B := by linarith
    have t1 := mul_le_mul_of_nonneg_left h' A0
    have t2 := mul_le_mul_of_nonneg_left a1 hw.le
    linarith

/-- of two planes that are apart and on which the product of two linear forms is small, one is near to the first of the two forms -/
theorem one_near {u m m₁ m₂ : V3} {ε γ κ : ℝ} (hε : 0 ≤ ε) (hγ : 0 < γ) (hκ : κ ≤ 1) (hm : m ⬝ᵥ m = 1)
    (h1 : m₁ ⬝ᵥ m₁ = 1) (h2 : m₂ ⬝ᵥ m₂ = 1) (hu : 4 * γ ^ 2 ≤ u ⬝ᵥ u - (u ⬝ᵥ m) ^ 2)
    (k1 : ∀ x, m₁ ⬝ᵥ x = 0 → |(u ⬝ᵥ x) * (m ⬝ᵥ x)| ≤ ε * (x ⬝ᵥ x))
    (k2 : ∀ x, m₂ ⬝ᵥ x = 0 → |(u ⬝ᵥ x) * (m ⬝ᵥ x)| ≤ ε * (x ⬝ᵥ x)) (ha : |m₁ ⬝ᵥ m₂| ≤ 1 - κ) (hs : 30 * ε ^ 2 < κ * γ ^ 2) :
    ((m ⨯₃ m₁) ⬝ᵥ (m ⨯₃ m₁)) * γ ^ 2 ≤ 15 * ε ^ 2 ∨ ((m ⨯₃ m₂) ⬝ᵥ (m ⨯₃ m₂)) * γ ^ 2 ≤ 15 * ε ^ 2 := by
  have hγ2 : 0 < γ ^ 2 := by positivity
  have hw : 0 < u ⬝ᵥ u := by nlinarith [sq_nonneg (u ⬝ᵥ m)]
  have one := fun {m₁ : V3} => either_near (m₁ := m₁) hε hm hw hu
  rcases one h1 k1 with h | f1
  · exact .inl h
  rcases one h2 k2 with h | f2
  · exact .inr h
  exfalso
  set r := Real.sqrt (u ⬝ᵥ u) with hr
  have r2 : r * r = u ⬝ᵥ u := Real.mul_self_sqrt hw.le
  have r0 : 0 < r := Real.sqrt_pos.2 hw
  have hv : (r⁻¹ • u) ⬝ᵥ (r⁻¹ • u) = 1 := by
    rw [smul_dotProduct, dotProduct_smul, smul_eq_mul, smul_eq_mul, ← r2]
    field_simp
  have side : ∀ {m₁ : V3}, m₁ ⬝ᵥ m₁ = 1 → ((u ⨯₃ m₁) ⬝ᵥ (u ⨯₃ m₁)) * γ ^ 2 ≤ 5 * ε ^ 2 * (u ⬝ᵥ u) →
      ((m₁ ⨯₃ (r⁻¹ • u)) ⬝ᵥ (m₁ ⨯₃ (r⁻¹ • u))) * γ ^ 2 ≤ 5 * ε ^ 2 := by
    intro m₁ h1 f1
    rw [cross_sq, h1, hv, dotProduct_smul, smul_eq_mul]
    rw [cross_sq, h1, ← r2, dotProduct_comm] at f1
    have e : (1 * 1 - (r⁻¹ * m₁ ⬝ᵥ u) ^ 2) * γ ^ 2 = (r * r * 1 - (m₁ ⬝ᵥ u) ^ 2) * γ ^ 2 / (r * r) := by
      field_simp
      try ring
    rw [e, div_le_iff₀ (by positivity)]
    exact f1
  have g1 := side h1 f1
  have g2 := side h2 f2
  have g3 := cross_near (u := m₁) h2 hv
  rw [cross_sq m₁ m₂, h1, h2] at g3
  have g4 : (m₁ ⬝ᵥ m₂) ^ 2 ≤ (1 - κ) ^ 2 := by
    rw [← sq_abs]
    exact pow_le_pow_left₀ (abs_nonneg _) ha 2
  have κ0 : 0 < κ := by
    by_contra hn
    have := mul_nonpos_of_nonpos_of_nonneg (not_lt.1 hn) hγ2.le
    nlinarith [sq_nonneg ε]
  have g5 : κ ≤ 1 - (m₁ ⬝ᵥ m₂) ^ 2 := by nlinarith
  have g6 := mul_le_mul_of_nonneg_right ((by linarith : κ ≤ 1 * 1 - (m₁ ⬝ᵥ m₂) ^ 2).trans g3) hγ2.le
  linarith

/-! ### laminates -/

theorem lengthError_eq (F : Mat3) (b m x : V3) : lengthError (Fᵀ * F) b m x =
    x ⬝ᵥ x + ((2 : ℝ) • b + (b ⬝ᵥ b) • m) ⬝ᵥ x * (m ⬝ᵥ x) - (F *ᵥ x) ⬝ᵥ (F *ᵥ x) := by
  rw [lengthError, gram_form, dyad_mulVec]
  simp only [dotProduct_add, add_dotProduct, dotProduct_smul, smul_dotProduct, smul_eq_mul, dotProduct_comm x b]
  ring

/-- two planes that are apart and on which `F` nearly meets the parent are near to all such planes -/
theorem finds_every {F : Mat3} {δ g : ℝ} (hg : 0 < g) (hs : StretchesBothWays F g) {R₁ R₂ : Mat3} {b₁ m₁ b₂ m₂ : V3}
    (h1 : ApproxHabit F δ R₁ b₁ m₁) (h2 : ApproxHabit F δ R₂ b₂ m₂) (ha : |m₁ ⬝ᵥ m₂| ≤ 1 - g / 4) :
    FindsEveryPlane F δ g m₁ m₂ := by
  intro δ₀ b m hm hfit hδg hδ
  obtain ⟨⟨p, p1, p2⟩, q, q1, q2⟩ := hs
  have g1 : g ≤ 1 := by linarith [self_nonneg (F *ᵥ p)]
  have d0 : 0 ≤ δ₀ := by
    have := (abs_nonneg _).trans (hfit m)
    rwa [hm, mul_one] at this
  have d1 : 0 ≤ δ := by
    have := (abs_nonneg _).trans (h1.fits m₁)
    rwa [h1.unit, mul_one] at this
  have hγ : 0 < g - δ₀ := by linarith
  have fp := (abs_le.1 (hfit p)).2
  have fq := (abs_le.1 (hfit q)).1
  rw [lengthError_eq, p1, mul_one] at fp
  rw [lengthError_eq, q1, mul_one] at fq
  have apart := product_apart (u := (2 : ℝ) • b + (b ⬝ᵥ b) • m) hγ hm p1 q1 (by linarith) (by linarith : g - δ₀ ≤ _)
  have small : ∀ {R₁ : Mat3} {b₁ m₁ : V3}, ApproxHabit F δ R₁ b₁ m₁ → ∀ x, m₁ ⬝ᵥ x = 0 →
      |((2 : ℝ) • b + (b ⬝ᵥ b) • m) ⬝ᵥ x * (m ⬝ᵥ x)| ≤ (δ + δ₀) * (x ⬝ᵥ x) := by
    intro R₁ b₁ m₁ h1 x hx
    have e0 := abs_le.1 (hfit x)
    have e1 := abs_le.1 (h1.fits x)
    rw [lengthError_eq] at e0 e1
    rw [hx, mul_zero, add_zero] at e1
    exact abs_le.2 ⟨by linarith [e0.1, e1.2], by linarith [e0.2, e1.1]⟩
  have hγ2 : 9 / 16 * g ^ 2 ≤ (g - δ₀) ^ 2 := by nlinarith
  have key := one_near (κ := g / 4) (by linarith) hγ (by linarith) hm h1.unit h2.unit apart (small h1) (small h2) ha (by
    have := mul_le_mul_of_nonneg_left hγ2 (by positivity : 0 ≤ g / 4)
    have : 0 < g ^ 3 := by positivity
    nlinarith)
  have fin : ∀ B : ℝ, 0 ≤ B → B * (g - δ₀) ^ 2 ≤ 15 * (δ + δ₀) ^ 2 → B ≤ (6 * (δ + δ₀) / g) ^ 2 := by
    intro B hB h
    rw [div_pow, le_div_iff₀ (by positivity)]
    have := mul_le_mul_of_nonneg_left hγ2 hB
    nlinarith [sq_nonneg (δ + δ₀)]
  rcases key with h | h
  · exact ⟨m₁, by simp, fin _ (self_nonneg _) h⟩
  · exact ⟨m₂, by simp, fin _ (self_nonneg _) h⟩

theorem habit_length {F : Mat3} {b m : V3} (h : HabitPlane F b m) (x : V3) :
    ((1 + vecMulVec b m : Mat3) *ᵥ x) ⬝ᵥ ((1 + vecMulVec b m : Mat3) *ᵥ x) = (F *ᵥ x) ⬝ᵥ (F *ᵥ x) := by
  obtain ⟨-, P, hP, e⟩ := h
  rw [← e, ← mulVec_mulVec, ← gram_form, mul_eq_one_comm.1 hP.1, one_mulVec]

theorem gram_dyad (b m : V3) : (1 + vecMulVec m b : Mat3) * (1 + vecMulVec b m) =
    1 + (1 / 2 : ℝ) • (vecMulVec m ((2 : ℝ) • b + (b ⬝ᵥ b) • m) + vecMulVec ((2 : ℝ) • b + (b ⬝ᵥ b) • m) m) := by
  rw [Matrix.add_mul, Matrix.mul_add, Matrix.mul_add, vecMulVec_mul_vecMulVec]
  ext i j
  simp only [Matrix.add_apply, Matrix.smul_apply, vecMulVec_apply, Matrix.one_mul, Matrix.mul_one, Pi.add_apply, Pi.smul_apply, smul_eq_mul]
  ring

/-- the other habit plane of a deformation -/
theorem other_habit {F : Mat3} (hF : 0 < F.det) {b m : V3} (h : HabitPlane F b m) {r : ℝ} (hr0 : 0 < r)
    (hr : r * r = ((2 : ℝ) • b + (b ⬝ᵥ b) • m) ⬝ᵥ ((2 : ℝ) • b + (b ⬝ᵥ b) • m)) :
    ∃ b', HabitPlane F b' (r⁻¹ • ((2 : ℝ) • b + (b ⬝ᵥ b) • m)) := by
  obtain ⟨⟨hm, hC⟩, hd⟩ := habit_rankOne hF h
  set u : V3 := (2 : ℝ) • b + (b ⬝ᵥ b) • m with hu
  have um : u ⬝ᵥ m = 2 * (m ⬝ᵥ b) + b ⬝ᵥ b := by
    rw [hu, add_dotProduct, smul_dotProduct, smul_dotProduct, hm, smul_eq_mul, smul_eq_mul, mul_one, dotProduct_comm b m]
  have uu : u ⬝ᵥ u = 4 * (b ⬝ᵥ b) + 4 * (b ⬝ᵥ b) * (m ⬝ᵥ b) + (b ⬝ᵥ b) ^ 2 := by
    rw [hu]
    simp only [dotProduct_add, add_dotProduct, dotProduct_smul, smul_dotProduct, smul_eq_mul, hm, dotProduct_comm b m]
    ring
  set k := b ⬝ᵥ b with hk
  set m' : V3 := r⁻¹ • u with hm'
  have u1 : m' ⬝ᵥ m' = 1 := by
    rw [hm', smul_dotProduct, dotProduct_smul, smul_eq_mul, smul_eq_mul, ← hr]
    field_simp
  have mm : r * (m' ⬝ᵥ m) = 2 * (m ⬝ᵥ b) + k := by
    rw [hm', smul_dotProduct, smul_eq_mul, um, mul_inv_cancel_left₀ hr0.ne']
  set b' : V3 := (1 / 2 : ℝ) • (r • m - k • m') with hb'
  have bb : b' ⬝ᵥ b' = k := by
    have e : b' ⬝ᵥ b' = (r * r - 2 * k * (r * (m' ⬝ᵥ m)) + k ^ 2) / 4 := by
      rw [hb']
      simp only [dotProduct_sub, sub_dotProduct, dotProduct_smul, smul_dotProduct, smul_eq_mul, hm, u1, dotProduct_comm m m']
      ring
    rw [e, mm, hr, uu]
    ring
  have w' : (2 : ℝ) • b' + (b' ⬝ᵥ b') • m' = r • m := by
    rw [bb, hb']
    module
  have ur : u = r • m' := by rw [hm', smul_smul, mul_inv_cancel₀ hr0.ne', one_smul]
  refine ⟨b', rankOne_habit hF ⟨u1, ?_⟩ ?_⟩
  · rw [← hC, gram_dyad, gram_dyad, w', ← hu, ur]
    ext i j
    simp only [Matrix.add_apply, Matrix.smul_apply, vecMulVec_apply, Pi.smul_apply, smul_eq_mul]
    ring
  · have e : m' ⬝ᵥ b' = (r * (m' ⬝ᵥ m) - k) / 2 := by
      rw [hb', dotProduct_smul, dotProduct_sub, dotProduct_smul, dotProduct_smul, u1]
      simp only [smul_eq_mul]
      ring
    rw [det_one_add_dyad, e, mm]
    linarith

/-- an approximate habit plane of a deformation close to one with a habit plane is near to a habit plane of the latter -/
theorem near_exact {F F₀ : Mat3} (hF : 0 < F₀.det) {δ g c : ℝ} (hg : 0 < g) (hs : StretchesBothWays F₀ g) {b m : V3} (h : HabitPlane F₀ b m)
    (hc : ∀ x, |(F₀ *ᵥ x) ⬝ᵥ (F₀ *ᵥ x) - (F *ᵥ x) ⬝ᵥ (F *ᵥ x)| ≤ c * (x ⬝ᵥ x)) {R₁ : Mat3} {b₁ m₁ : V3} (h1 : ApproxHabit F δ R₁ b₁ m₁) :
    ∃ b' m', HabitPlane F₀ b' m' ∧ (m' ⨯₃ m₁) ⬝ᵥ (m' ⨯₃ m₁) ≤ (6 * (δ + c) / g) ^ 2 := by
  obtain ⟨⟨p, p1, p2⟩, q, q1, q2⟩ := hs
  have len : ∀ x, x ⬝ᵥ x + ((2 : ℝ) • b + (b ⬝ᵥ b) • m) ⬝ᵥ x * (m ⬝ᵥ x) = (F₀ *ᵥ x) ⬝ᵥ (F₀ *ᵥ x) := fun x => by
    have := lengthError_eq F₀ b m x
    rw [lengthError, habit_length h, gram_form, sub_self] at this
    linarith
  have lp := len p
  have lq := len q
  rw [p1] at lp
  rw [q1] at lq
  have apart := product_apart (u := (2 : ℝ) • b + (b ⬝ᵥ b) • m) hg h.1 p1 q1 (by linarith) (by linarith)
  have d1 : 0 ≤ δ + c := by
    have t1 := (abs_nonneg _).trans (h1.fits m₁)
    have t2 := (abs_nonneg _).trans (hc m₁)
    rw [h1.unit, mul_one] at t1 t2
    linarith
  have small : ∀ x, m₁ ⬝ᵥ x = 0 → |((2 : ℝ) • b + (b ⬝ᵥ b) • m) ⬝ᵥ x * (m ⬝ᵥ x)| ≤ (δ + c) * (x ⬝ᵥ x) := by
    intro x hx
    have e0 := abs_le.1 (hc x)
    have e1 := abs_le.1 (h1.fits x)
    have e2 := len x
    rw [lengthError_eq, hx, mul_zero, add_zero] at e1
    exact abs_le.2 ⟨by linarith [e0.1, e1.2], by linarith [e0.2, e1.1]⟩
  have hw : 0 < ((2 : ℝ) • b + (b ⬝ᵥ b) • m) ⬝ᵥ ((2 : ℝ) • b + (b ⬝ᵥ b) • m) := by
    have : 0 < g ^ 2 := by positivity
    linarith [sq_nonneg (((2 : ℝ) • b + (b ⬝ᵥ b) • m) ⬝ᵥ m)]
  have key := either_near d1 h.1 hw apart h1.unit small
  have fin : ∀ B : ℝ, B * g ^ 2 ≤ 15 * (δ + c) ^ 2 → B ≤ (6 * (δ + c) / g) ^ 2 := by
    intro B h
    rw [div_pow, le_div_iff₀ (by positivity)]
    nlinarith [sq_nonneg (δ + c)]
  rcases key with k | k
  · exact ⟨b, m, h, fin _ k⟩
  · have r0 := Real.sqrt_pos.2 hw
    have r2 := Real.mul_self_sqrt hw.le
    obtain ⟨b', hb'⟩ := other_habit hF h r0 r2
    refine ⟨b', _, hb', fin _ ?_⟩
    generalize ((2 : ℝ) • b + (b ⬝ᵥ b) • m) = u at *
    generalize Real.sqrt (u ⬝ᵥ u) = r at *
    rw [map_smul, LinearMap.smul_apply, smul_dotProduct, dotProduct_smul, smul_eq_mul, smul_eq_mul]
    rw [← r2] at k
    have e : r⁻¹ * (r⁻¹ * (u ⨯₃ m₁) ⬝ᵥ (u ⨯₃ m₁)) * g ^ 2 = (u ⨯₃ m₁) ⬝ᵥ (u ⨯₃ m₁) * g ^ 2 / (r * r) := by
      field_simp
    rw [e, div_le_iff₀ (by positivity)]
    nlinarith [mul_nonneg (sq_nonneg (δ + c)) (mul_pos r0 r0).le]

/-- exchanging the fractions does not change the principal stretches -/
theorem bothWays_swap (eig : Mat3 → EigRes) (heig : ∀ A, Aᵀ = A → EigOK (eig A).vals (eig A).vecs A)
    (sV : SmallStretch V) (sW : SmallStretch W) (hrel : Related V W) {E : Mat3} {a n : V3} (ha : SolvesTwin V W E a n)
    {f g : ℝ} (hs : StretchesBothWays (V + f • vecMulVec a n) g) : StretchesBothWays (V + (1 - f) • vecMulVec a n) g := by
  have hsy := gram_symm (V + f • vecMulVec a n)
  obtain ⟨k1, k2⟩ := sortEig_spec (heig _ hsy)
  have hl : SortedEigenvalues ((V + f • vecMulVec a n)ᵀ * (V + f • vecMulVec a n))
      (sortEig eig ((V + f • vecMulVec a n)ᵀ * (V + f • vecMulVec a n))).vals := ⟨k2, k1.eigenvalues⟩
  have hl' := laminate_swap (small_spd sV) (small_spd sW) hrel ha f hl
  have hsy' := gram_symm (V + (1 - f) • vecMulVec a n)
  obtain ⟨k3, k4⟩ := sortEig_spec (heig _ hsy')
  obtain ⟨-, s2⟩ := sorted_eq (heig _ hsy') hl'
  obtain ⟨⟨p, p1, p2⟩, q, q1, q2⟩ := hs
  have c0 := (rayleigh eig hsy (heig _ hsy) hl p).1
  have c2 := (rayleigh eig hsy (heig _ hsy) hl q).2
  rw [gram_form, p1, mul_one] at c0
  rw [gram_form, q1, mul_one] at c2
  refine ⟨⟨_, k3.unit 0, ?_⟩, _, k3.unit 2, ?_⟩
  · rw [← gram_form, k3.eigenvector 0, dotProduct_smul, k3.unit 0, smul_eq_mul, mul_one, s2]
    exact c0.trans p2
  · rw [← gram_form, k3.eigenvector 2, dotProduct_smul, k3.unit 2, smul_eq_mul, mul_one, s2]
    exact q2.trans c2

/-- **C118** `habitplanes()` misses no habit plane of the laminates with the fractions of `volumefrac()`. -/
theorem C118_every_plane (eig : Mat3 → EigRes) (heig : ∀ A, Aᵀ = A → EigOK (eig A).vals (eig A).vecs A)
    (rnd : ℝ → ℝ) (hr : ∀ x, |rnd x - x| ≤ 5 / 10 ^ 11)
    (h : SmallStretch U) (hc : ClearSymmetry U) {vs : List Mat3} (hvs : Mart.getVariants t ⟨some U, cubicR⟩ = .ok vs)
    (ht : t = .code ∨ t = .exact) (hV : V ∈ vs) (hW : W ∈ vs) (hne : V ≠ W) {n : V3} (hn : IsTwinAxis V W n)
    (hy : ClearlyNotPrincipal V (crossDirection V n) ∨ IsPrincipal V (crossDirection V n)) (skip : Bool) :
    ∃ P E₁ a₁ n₁ E₂ a₂ n₂, TwinPair.new eig V W skip = .ok P ∧ SolvesTwin V W E₁ a₁ n₁ ∧ SolvesTwin V W E₂ a₂ n₂ ∧
      (∀ Q a n, SolvesTwin V W Q a n → (Q = E₁ ∧ SameUpToSign a₁ n₁ a n) ∨ (Q = E₂ ∧ SameUpToSign a₂ n₂ a n)) ∧
      ∃ F₁ F₂, P.volumeFrac eig t rnd false = .ok (F₁, F₂) ∧ AccurateFraction V a₁ n₁ F₁ ∧ AccurateFraction V a₂ n₂ F₂ ∧
      ∀ f₁ f₂ g : ℝ, F₁ = some f₁ → F₂ = some f₂ → 0 < f₁ → f₁ < 1 → 0 < f₂ → f₂ < 1 → 1 / 500 ≤ g →
        StretchesBothWays (V + f₁ • vecMulVec a₁ n₁) g → StretchesBothWays (V + f₂ • vecMulVec a₂ n₂) g →
        ∀ ty, ty ≠ .other → ∃ x₁ x₂ x₃ x₄ x₅ x₆ x₇ x₈ : Mat3 × V3 × V3,
          P.habitPlanes eig t rnd false ty =
            .ok [some x₁, some x₂, some x₃, some x₄, some x₅, some x₆, some x₇, some x₈] ∧
          FindsEveryPlane (V + f₁ • vecMulVec a₁ n₁) (1 / 10 ^ 9 / g ^ 2 + 1 / 10 ^ 7) g x₁.2.2 x₂.2.2 ∧
          FindsEveryPlane (V + (1 - f₁) • vecMulVec a₁ n₁) (1 / 10 ^ 9 / g ^ 2 + 1 / 10 ^ 7) g x₃.2.2 x₄.2.2 ∧
          FindsEveryPlane (V + f₂ • vecMulVec a₂ n₂) (1 / 10 ^ 9 / g ^ 2 + 1 / 10 ^ 7) g x₅.2.2 x₆.2.2 ∧
          FindsEveryPlane (V + (1 - f₂) • vecMulVec a₂ n₂) (1 / 10 ^ 9 / g ^ 2 + 1 / 10 ^ 7) g x₇.2.2 x₈.2.2 := by
  obtain ⟨iV, iW, -⟩ := variant_of h hc hvs ht hV hW
  have sV := image_small h iV
  have sW := image_small h iW
  have hrel : Related V W := ⟨_, halfTurn_rotation hn.1, hn.2.symm⟩
  obtain ⟨P, E₁, a₁, n₁, E₂, a₂, n₂, r1, r2, r3, r4, F₁, F₂, r5, r6, r7, r8⟩ :=
    C118_habitplanes eig heig rnd hr h hc hvs ht hV hW hne hn hy skip
  refine ⟨P, E₁, a₁, n₁, E₂, a₂, n₂, r1, r2, r3, r4, F₁, F₂, r5, r6, r7, ?_⟩
  intro f₁ f₂ g e1 e2 p1 q1 p2 q2 hg s1 s2 ty hty
  obtain ⟨x₁, x₂, x₃, x₄, x₅, x₆, x₇, x₈, t0, t1, t2, t3, t4, d1, d2, d3, d4⟩ := r8 f₁ f₂ g e1 e2 p1 q1 p2 q2 hg s1 s2 ty hty
  have hg0 : 0 < g := lt_of_lt_of_le (by norm_num) hg
  exact ⟨x₁, x₂, x₃, x₄, x₅, x₆, x₇, x₈, t0,
    finds_every hg0 s1 (t1 _ (by simp)) (t1 _ (by simp)) d1,
    finds_every hg0 (bothWays_swap eig heig sV sW hrel r2 s1) (t2 _ (by simp)) (t2 _ (by simp)) d2,
    finds_every hg0 s2 (t3 _ (by simp)) (t3 _ (by simp)) d3,
    finds_every hg0 (bothWays_swap eig heig sV sW hrel r3 s2) (t4 _ (by simp)) (t4 _ (by simp)) d4⟩

/-! ### tetragonal stretches: the exact laminates -/

theorem tetra_shear_sq {α γ : ℝ} (hα : 0 < α) (hγ : 0 < γ) (hne : α ≠ γ) {i j : Fin 3} (hij : i ≠ j) {Q : Mat3} {a n : V3}
    (h : SolvesTwin (tetraStretch α γ i) (tetraStretch α γ j) Q a n) : a ⬝ᵥ a = 2 * (α ^ 2 - γ ^ 2) ^ 2 / (α ^ 2 + γ ^ 2) := by
  obtain ⟨σ, τ, hσ, hτ, ha, -⟩ := tetra_solutions hα hγ hne hij h
  have hσ2 : σ ^ 2 = 1 := by rcases hσ with h | h <;> rw [h] <;> norm_num
  have hτ2 : τ ^ 2 = 1 := by rcases hτ with h | h <;> rw [h] <;> norm_num
  obtain ⟨k, hki, hkj, -, third⟩ := third i j hij
  have s2 : Real.sqrt 2 ^ 2 = 2 := Real.sq_sqrt (by norm_num)
  have pos : 0 < α ^ 2 + γ ^ 2 := by positivity
  rw [ha, smul_dotProduct, dotProduct_smul, dotProduct, third]
  simp only [diagonalShear, if_true, if_neg hij.symm, if_neg hki, if_neg hkj, mul_zero, add_zero, smul_eq_mul]
  have e : ∀ w : ℝ, τ * (τ * (Real.sqrt 2 * w * γ * (Real.sqrt 2 * w * γ) + Real.sqrt 2 * w * -(σ * α) * (Real.sqrt 2 * w * -(σ * α)))) =
      τ ^ 2 * (Real.sqrt 2 ^ 2 * w ^ 2 * (γ ^ 2 + σ ^ 2 * α ^ 2)) := fun w => by ring
  rw [e, hτ2, s2, hσ2]
  field_simp
  ring

/-- the metric of a laminate hardly changes with the fraction -/
theorem fraction_close {F : Mat3} {a n : V3} {A e c : ℝ} (hF : ∀ x, (F *ᵥ x) ⬝ᵥ (F *ᵥ x) ≤ 4 * (x ⬝ᵥ x)) (hn : n ⬝ᵥ n = 1)
    (hA0 : 0 ≤ A) (hA1 : A ≤ 1) (hA : a ⬝ᵥ a ≤ A ^ 2) (hc : |c| ≤ e) (he : e ≤ 1) (x : V3) :
    |(F *ᵥ x) ⬝ᵥ (F *ᵥ x) - ((F + c • vecMulVec a n) *ᵥ x) ⬝ᵥ ((F + c • vecMulVec a n) *ᵥ x)| ≤ 5 * A * e * (x ⬝ᵥ x) := by
  have e1 : (F + c • vecMulVec a n) *ᵥ x = F *ᵥ x + (c * (n ⬝ᵥ x)) • a := by
    rw [add_mulVec, smul_mulVec, vecMulVec_mulVec, op_smul_eq_smul, smul_smul]
  have e2 : (F *ᵥ x) ⬝ᵥ (F *ᵥ x) - (F *ᵥ x + (c * (n ⬝ᵥ x)) • a) ⬝ᵥ (F *ᵥ x + (c * (n ⬝ᵥ x)) • a) =
      -(c * (2 * ((n ⬝ᵥ x) * (a ⬝ᵥ F *ᵥ x)) + c * ((n ⬝ᵥ x) ^ 2 * (a ⬝ᵥ a)))) := by
    simp only [dotProduct_add, add_dotProduct, dotProduct_smul, smul_dotProduct, smul_eq_mul, dotProduct_comm (F *ᵥ x) a]
    ring
  have p := self_nonneg x
  have pa := self_nonneg a
  have n1 : (n ⬝ᵥ x) ^ 2 ≤ x ⬝ᵥ x := by
    have := cauchy3 n x
    rwa [hn, one_mul] at this
  have n2 : (a ⬝ᵥ F *ᵥ x) ^ 2 ≤ A ^ 2 * (4 * (x ⬝ᵥ x)) :=
    (cauchy3 a _).trans (mul_le_mul hA (hF x) (self_nonneg _) (sq_nonneg A))
  have n3 : |(n ⬝ᵥ x) * (a ⬝ᵥ F *ᵥ x)| ≤ 2 * A * (x ⬝ᵥ x) := by
    refine abs_le_of_sq_le_sq ?_ (by positivity)
    have := mul_le_mul n1 n2 (sq_nonneg _) p
    rw [mul_pow]
    linarith
  have n4 : |(n ⬝ᵥ x) ^ 2 * (a ⬝ᵥ a)| ≤ A * (x ⬝ᵥ x) := by
    rw [abs_of_nonneg (mul_nonneg (sq_nonneg _) pa)]
    have := mul_le_mul n1 (hA.trans (by nlinarith : A ^ 2 ≤ A)) pa p
    linarith
  have e0 := (abs_nonneg c).trans hc
  have n5 : |c * ((n ⬝ᵥ x) ^ 2 * (a ⬝ᵥ a))| ≤ A * (x ⬝ᵥ x) := by
    rw [abs_mul]
    have := mul_le_mul (hc.trans he) n4 (abs_nonneg _) zero_le_one
    linarith
  rw [e1, e2, abs_neg, abs_mul]
  have n6 := abs_add_le (2 * ((n ⬝ᵥ x) * (a ⬝ᵥ F *ᵥ x))) (c * ((n ⬝ᵥ x) ^ 2 * (a ⬝ᵥ a)))
  rw [abs_mul 2, abs_two] at n6
  have n7 := mul_le_mul hc (n6.trans (by linarith : _ ≤ 5 * A * (x ⬝ᵥ x))) (abs_nonneg _) e0
  linarith

/-- a laminate with a stretch equal to one that stretches both ways has a habit plane -/
theorem habit_exists (hV : IsSPD V) (hrel : Related V W) {E : Mat3} {a n : V3} (ha : SolvesTwin V W E a n) {f g : ℝ} (hg : 0 < g)
    (hD : interfaceDet V a n f = 0) (hs : StretchesBothWays (V + f • vecMulVec a n) g) :
    ∃ b m, HabitPlane (V + f • vecMulVec a n) b m := by
  obtain ⟨eig, heig⟩ := exists_eig
  have hsy := gram_symm (V + f • vecMulVec a n)
  obtain ⟨k1, k2⟩ := sortEig_spec (heig _ hsy)
  have hl : SortedEigenvalues ((V + f • vecMulVec a n)ᵀ * (V + f • vecMulVec a n))
      (sortEig eig ((V + f • vecMulVec a n)ᵀ * (V + f • vecMulVec a n))).vals := ⟨k2, k1.eigenvalues⟩
  refine habit_of_middle (by rw [laminate_det hV hrel ha]; exact spd_det_pos hV) hl ?_
  obtain ⟨⟨p, p1, p2⟩, q, q1, q2⟩ := hs
  have c0 := (rayleigh eig hsy (heig _ hsy) hl p).1
  have c2 := (rayleigh eig hsy (heig _ hsy) hl q).2
  rw [gram_form, p1, mul_one] at c0
  rw [gram_form, q1, mul_one] at c2
  have hdet := eigenvalues_sub hl.2
  generalize (sortEig eig ((V + f • vecMulVec a n)ᵀ * (V + f • vecMulVec a n))).vals = l at *
  rw [laminate_metric hV.1] at hdet
  change interfaceDet V a n f = _ at hdet
  rw [hD] at hdet
  rcases mul_eq_zero.1 hdet.symm with h | h
  · rcases mul_eq_zero.1 h with h | h <;> linarith
  · linarith

/-- **C118**, tetragonal stretches: the four exact laminates, with the fractions `λ` and `1 - λ` of the closed formula, have habit planes,
and every habit plane makes with one of the two planes returned for it, and every plane returned with one of the habit planes, an angle
whose sine is at most `6 (1e-9/g² + 1e-7 + 1e-9 A/(s d)) / g`,
where `A` is a bound of the shear of the twins. -/
theorem C118_exact_planes (eig : Mat3 → EigRes) (heig : ∀ A, Aᵀ = A → EigOK (eig A).vals (eig A).vecs A)
    (rnd : ℝ → ℝ) (hr : ∀ x, |rnd x - x| ≤ 5 / 10 ^ 11) {α γ : ℝ} (hα : |α - 1| ≤ 13 / 100) (hγ : |γ - 1| ≤ 13 / 100)
    (h : 2 / 10 ^ 4 ≤ |α - γ|) (ht : t = .code ∨ t = .exact) {i j : Fin 3} (hij : i ≠ j) {s d g A : ℝ}
    (hs : 2 * s = |α ^ 2 - 1| * ((α ^ 2 - γ ^ 2) ^ 2 / (α ^ 2 + γ ^ 2))) (hd : 2 / 10 ^ 6 ≤ d) (hsd : 1 / 10 ^ 9 ≤ s * d ^ 2)
    (h1 : 1 / 2 + d ≤ laminateFraction α γ) (h2 : laminateFraction α γ ≤ 1 - d) (hg : 1 / 500 ≤ g)
    (hag : α ^ 2 ≤ 1 - g ∧ 1 + g ≤ (α ^ 2 + γ ^ 2) / 2 ∨ (α ^ 2 + γ ^ 2) / 2 ≤ 1 - g ∧ 1 + g ≤ α ^ 2)
    (hA0 : 0 ≤ A) (hA1 : A ≤ 1) (hA : 2 * (α ^ 2 - γ ^ 2) ^ 2 / (α ^ 2 + γ ^ 2) ≤ A ^ 2)
    (hk : 4 * (A / 10 ^ 9 / (s * d)) ≤ g) (hk' : 250 * (1 / 10 ^ 9 / g ^ 2 + 1 / 10 ^ 7 + A / 10 ^ 9 / (s * d)) ^ 2 ≤ g ^ 3)
    (skip : Bool) (ty : TwinType) (hty : ty ≠ .other) :
    ∃ P E₁ a₁ n₁ E₂ a₂ n₂, ∃ x₁ x₂ x₃ x₄ x₅ x₆ x₇ x₈ : Mat3 × V3 × V3,
      TwinPair.new eig (tetraStretch α γ i) (tetraStretch α γ j) skip = .ok P ∧
      SolvesTwin (tetraStretch α γ i) (tetraStretch α γ j) E₁ a₁ n₁ ∧ SolvesTwin (tetraStretch α γ i) (tetraStretch α γ j) E₂ a₂ n₂ ∧
      (∀ Q a n, SolvesTwin (tetraStretch α γ i) (tetraStretch α γ j) Q a n →
        (Q = E₁ ∧ SameUpToSign a₁ n₁ a n) ∨ (Q = E₂ ∧ SameUpToSign a₂ n₂ a n)) ∧
      P.habitPlanes eig t rnd false ty = .ok [some x₁, some x₂, some x₃, some x₄, some x₅, some x₆, some x₇, some x₈] ∧
      ∀ l ∈ [(a₁, n₁, laminateFraction α γ, x₁.2.2, x₂.2.2), (a₁, n₁, 1 - laminateFraction α γ, x₃.2.2, x₄.2.2),
          (a₂, n₂, laminateFraction α γ, x₅.2.2, x₆.2.2), (a₂, n₂, 1 - laminateFraction α γ, x₇.2.2, x₈.2.2)],
        (∀ m' ∈ [l.2.2.2.1, l.2.2.2.2], ∃ b m, HabitPlane (tetraStretch α γ i + l.2.2.1 • vecMulVec l.1 l.2.1) b m ∧
          (m ⨯₃ m') ⬝ᵥ (m ⨯₃ m') ≤ (6 * (1 / 10 ^ 9 / g ^ 2 + 1 / 10 ^ 7 + A / 10 ^ 9 / (s * d)) / g) ^ 2) ∧
        ∀ b m, HabitPlane (tetraStretch α γ i + l.2.2.1 • vecMulVec l.1 l.2.1) b m →
          ∃ m' ∈ [l.2.2.2.1, l.2.2.2.2],
            (m ⨯₃ m') ⬝ᵥ (m ⨯₃ m') ≤ (6 * (1 / 10 ^ 9 / g ^ 2 + 1 / 10 ^ 7 + A / 10 ^ 9 / (s * d)) / g) ^ 2 := by
  have hc := tetra_clearly hα hγ h
  obtain ⟨pα, pγ⟩ := clearly_pos hc
  have hne := clearly_ne hc
  have hg0 : 0 < g := lt_of_lt_of_le (by norm_num) hg
  have hd0 : 0 < d := lt_of_lt_of_le (by norm_num) hd
  have small : 2 / 10 ^ 10 / (s * d) ≤ 1 := by
    have hs0 : 0 < s := by
      by_contra hn
      have := mul_nonpos_of_nonpos_of_nonneg (not_lt.1 hn) (pow_two_nonneg d)
      norm_num only at hsd
      linarith
    rw [div_le_iff₀ (mul_pos hs0 hd0)]
    have hd1 : d ≤ 1 := by linarith
    norm_num only at hsd ⊢
    nlinarith [mul_pos hs0 hd0]
  obtain ⟨P, E₁, a₁, n₁, E₂, a₂, n₂, f₁, f₂, x₁, x₂, x₃, x₄, x₅, x₆, x₇, x₈, r1, -, q1, q2, r3, r4, r5, r6, t1, t2, t3, t4, d1, d2, d3, d4⟩ :=
    C118_tetragonal eig heig rnd hr hα hγ h ht hij hs hd hsd h1 h2 hg hag skip ty hty
  have near : ∀ {E a n} {f c : ℝ}, SolvesTwin (tetraStretch α γ i) (tetraStretch α γ j) E a n →
      |f - c| ≤ 2 / 10 ^ 10 / (s * d) → 0 ≤ c → c ≤ 1 → ∀ x,
      |((tetraStretch α γ i + c • vecMulVec a n) *ᵥ x) ⬝ᵥ ((tetraStretch α γ i + c • vecMulVec a n) *ᵥ x) -
        ((tetraStretch α γ i + f • vecMulVec a n) *ᵥ x) ⬝ᵥ ((tetraStretch α γ i + f • vecMulVec a n) *ᵥ x)| ≤
        A / 10 ^ 9 / (s * d) * (x ⬝ᵥ x) := by
    intro E a n f c hE hfc hc0 hc1 x
    have e := fraction_close (a := a) (n := n) (c := f - c) (laminate_upper (tetra_smallStretch hα hγ i) (tetra_smallStretch hα hγ j) hE hc0 hc1)
      hE.unit hA0 hA1 ((tetra_shear_sq pα pγ hne hij hE).trans_le hA) hfc small x
    rw [add_assoc, ← add_smul, add_sub_cancel] at e
    refine e.trans_eq ?_
    ring
  have one : ∀ {E a n} {f c : ℝ} {m₁ m₂ : V3}, SolvesTwin (tetraStretch α γ i) (tetraStretch α γ j) E a n →
      |f - c| ≤ 2 / 10 ^ 10 / (s * d) → 0 ≤ c → c ≤ 1 →
      FindsEveryPlane (tetraStretch α γ i + f • vecMulVec a n) (1 / 10 ^ 9 / g ^ 2 + 1 / 10 ^ 7) g m₁ m₂ →
      ∀ b m, HabitPlane (tetraStretch α γ i + c • vecMulVec a n) b m → ∃ m' ∈ [m₁, m₂],
        (m ⨯₃ m') ⬝ᵥ (m ⨯₃ m') ≤ (6 * (1 / 10 ^ 9 / g ^ 2 + 1 / 10 ^ 7 + A / 10 ^ 9 / (s * d)) / g) ^ 2 := by
    intro E a n f c m₁ m₂ hE hfc hc0 hc1 hfind b m hb
    refine hfind _ b m hb.1 (fun x => ?_) hk hk'
    rw [lengthError, habit_length hb, gram_form]
    exact near hE hfc hc0 hc1 x
  refine ⟨P, E₁, a₁, n₁, E₂, a₂, n₂, x₁, x₂, x₃, x₄, x₅, x₆, x₇, x₈, r1, r3, r4, r5, r6, ?_⟩
  have w1 : ∀ {f c e : ℝ}, |f - c| ≤ e → |1 - f - (1 - c)| ≤ e := fun {f c e} hx => by
    rwa [show 1 - f - (1 - c) = -(f - c) by ring, abs_neg]
  have b1 : 0 ≤ laminateFraction α γ := by linarith
  have b2 : laminateFraction α γ ≤ 1 := by linarith
  have ways := fun {E a n} (hE : SolvesTwin (tetraStretch α γ i) (tetraStretch α γ j) E a n) => tetra_bothWays pα pγ hne hij hE hag
  have root : (laminateFraction α γ - 1 / 2) ^ 2 = fractionOffset α γ := by
    have hq := Real.sq_sqrt (x := fractionOffset α γ) (by
      by_contra hn
      rw [laminateFraction, Real.sqrt_eq_zero_of_nonpos (not_le.1 hn).le] at h1
      linarith)
    rw [laminateFraction]
    linear_combination hq
  have ex : ∀ {E a n} {c : ℝ}, SolvesTwin (tetraStretch α γ i) (tetraStretch α γ j) E a n → (c - 1 / 2) ^ 2 = fractionOffset α γ →
      ∃ b m, HabitPlane (tetraStretch α γ i + c • vecMulVec a n) b m := fun {E a n c} hE hc => by
    refine habit_exists (tetraStretch_spd pα pγ i) (tetraStretch_related hij) hE hg0 ?_ (ways hE c)
    rw [((tetra_laminate pα pγ hne hij hE).2 c).1, (offset_root pα pγ hne c).2 hc, mul_zero]
  have back : ∀ {E a n} {f c : ℝ} {y z : Mat3 × V3 × V3}, SolvesTwin (tetraStretch α γ i) (tetraStretch α γ j) E a n →
      (c - 1 / 2) ^ 2 = fractionOffset α γ → |f - c| ≤ 2 / 10 ^ 10 / (s * d) → 0 ≤ c → c ≤ 1 →
      (∀ x ∈ [y, z], ApproxHabit (tetraStretch α γ i + f • vecMulVec a n) (1 / 10 ^ 9 / g ^ 2 + 1 / 10 ^ 7) x.1 x.2.1 x.2.2) →
      ∀ m' ∈ [y.2.2, z.2.2], ∃ b m, HabitPlane (tetraStretch α γ i + c • vecMulVec a n) b m ∧
        (m ⨯₃ m') ⬝ᵥ (m ⨯₃ m') ≤ (6 * (1 / 10 ^ 9 / g ^ 2 + 1 / 10 ^ 7 + A / 10 ^ 9 / (s * d)) / g) ^ 2 := by
    intro E a n f c y z hE hc hfc hc0 hc1 hx m' hm'
    obtain ⟨b, m, hb⟩ := ex hE hc
    have hdet : 0 < (tetraStretch α γ i + c • vecMulVec a n).det := by
      rw [laminate_det (tetraStretch_spd pα pγ i) (tetraStretch_related hij) hE]
      exact spd_det_pos (tetraStretch_spd pα pγ i)
    simp only [List.mem_cons, List.not_mem_nil, or_false] at hm'
    rcases hm' with rfl | rfl
    · exact near_exact hdet hg0 (ways hE c) hb (near hE hfc hc0 hc1) (hx y (by simp))
    · exact near_exact hdet hg0 (ways hE c) hb (near hE hfc hc0 hc1) (hx z (by simp))
  have root' : (1 - laminateFraction α γ - 1 / 2) ^ 2 = fractionOffset α γ := by rw [← root]; ring
  intro l hl
  simp only [List.mem_cons, List.not_mem_nil, or_false] at hl
  rcases hl with rfl | rfl | rfl | rfl
  · refine ⟨back r3 root q1 b1 b2 t1, ?_⟩
    exact one r3 q1 b1 b2 (finds_every hg0 (ways r3 _) (t1 x₁ (by simp)) (t1 x₂ (by simp)) d1)
  · refine ⟨back r3 root' (w1 q1) (by linarith) (by linarith) t2, ?_⟩
    exact one r3 (w1 q1) (by linarith) (by linarith) (finds_every hg0 (ways r3 _) (t2 x₃ (by simp)) (t2 x₄ (by simp)) d2)
  · refine ⟨back r4 root q2 b1 b2 t3, ?_⟩
    exact one r4 q2 b1 b2 (finds_every hg0 (ways r4 _) (t3 x₅ (by simp)) (t3 x₆ (by simp)) d3)
  · refine ⟨back r4 root' (w1 q2) (by linarith) (by linarith) t4, ?_⟩
    exact one r4 (w1 q2) (by linarith) (by linarith) (finds_every hg0 (ways r4 _) (t4 x₇ (by simp)) (t4 x₈ (by simp)) d4)

/-! ## The hypotheses are met -/

/-- The stretches 0.99 and 1.05, with the rounding of the code: the sine of the angle is at most 1/100. -/
example (eig : Mat3 → EigRes) (heig : ∀ A, Aᵀ = A → EigOK (eig A).vals (eig A).vecs A) :
    ∃ P E a n, ∃ x₁ x₂ x₃ x₄ x₅ x₆ x₇ x₈ : Mat3 × V3 × V3,
      TwinPair.new eig (tetraStretch 0.99 1.05 0) (tetraStretch 0.99 1.05 1) false = .ok P ∧
      SolvesTwin (tetraStretch 0.99 1.05 0) (tetraStretch 0.99 1.05 1) E a n ∧
      P.habitPlanes eig .code rnd10 false .C = .ok [some x₁, some x₂, some x₃, some x₄, some x₅, some x₆, some x₇, some x₈] ∧
      (∃ b m, HabitPlane (tetraStretch 0.99 1.05 0 + laminateFraction 0.99 1.05 • vecMulVec a n) b m) ∧
      ∀ b m, HabitPlane (tetraStretch 0.99 1.05 0 + laminateFraction 0.99 1.05 • vecMulVec a n) b m →
        ∃ m' ∈ [x₁.2.2, x₂.2.2], (m ⨯₃ m') ⬝ᵥ (m ⨯₃ m') ≤ (1 / 100) ^ 2 := by
  have e : |(0.99 : ℝ) ^ 2 - 1| = 0.0199 := by norm_num [abs_of_neg]
  have ho : fractionOffset 0.99 1.05 ∈ Set.Icc ((1 / 10) ^ 2 : ℝ) ((2 / 5) ^ 2) := by
    rw [fractionOffset]
    constructor <;> norm_num
  have hl : Real.sqrt (fractionOffset 0.99 1.05) ∈ Set.Icc (1 / 10 : ℝ) (2 / 5) :=
    ⟨Real.le_sqrt_of_sq_le ho.1, Real.sqrt_le_iff.2 ⟨by norm_num, ho.2⟩⟩
  obtain ⟨P, E₁, a₁, n₁, _, _, _, x₁, x₂, x₃, x₄, x₅, x₆, x₇, x₈, r1, r2, _, _, r3, r4⟩ :=
    C118_exact_planes eig heig rnd10 C55_rounding (α := 0.99) (γ := 1.05) (t := .code)
    (by norm_num [abs_of_neg]) (by norm_num [abs_of_pos]) (by norm_num [abs_of_neg]) (.inl rfl) (i := 0) (j := 1) (by decide)
    (s := |0.99 ^ 2 - 1| * ((0.99 ^ 2 - 1.05 ^ 2) ^ 2 / (0.99 ^ 2 + 1.05 ^ 2)) / 2) (d := 1 / 10) (g := 1 / 60) (A := 1 / 8)
    (by ring) (by norm_num)
    (by norm_num [abs_of_neg]) (by rw [laminateFraction]; linarith [hl.1]) (by rw [laminateFraction]; linarith [hl.2])
    (by norm_num) (.inl (by norm_num)) (by norm_num) (by norm_num) (by norm_num) (by rw [e]; norm_num only) (by rw [e]; norm_num only)
    false .C (by simp)
  obtain ⟨r5, r6⟩ := r4 (a₁, n₁, laminateFraction 0.99 1.05, x₁.2.2, x₂.2.2) List.mem_cons_self
  clear r4
  refine ⟨P, E₁, a₁, n₁, x₁, x₂, x₃, x₄, x₅, x₆, x₇, x₈, r1, r2, r3, ?_, fun b m hb => ?_⟩
  · obtain ⟨b, m, hb, -⟩ := r5 x₁.2.2 List.mem_cons_self
    exact ⟨b, m, hb⟩
  obtain ⟨m', hm, hle⟩ := r6 b m hb
  refine ⟨m', hm, hle.trans ?_⟩
  rw [e]
  norm_num only

end Verif.Props
