import Verif.Spec.Orthorhombic
import Verif.Props.Tetragonal
import Verif.Props.TwinSwap

/-!
# Cubic to orthorhombic transformations

C104: six variants, every pair twinnable, compound exactly for the three pairs with the same cube axis.
-/

namespace Verif.Props

open Matrix Verif.Model Verif.Spec Verif.Lemmas

local notation "Mat3" => Matrix (Fin 3) (Fin 3) ℝ

variable {α β γ a b c : ℝ} {t : Tol}

/-! ### matrices of one block -/

/-- `c` at the place `k` of the diagonal, `a` at the other two, `b` between these two -/
noncomputable def om (k : Fin 3) (a b c : ℝ) : Mat3 :=
  Matrix.of fun i j => if i = k then (if j = k then c else 0) else if j = k then 0 else if i = j then a else b

theorem ortho_om (k : Fin 3) (σ : ℝ) :
    orthoStretch α β γ k σ = om k ((α + γ) / 2) (σ * ((α - γ) / 2)) β := rfl

theorem om_mul (k : Fin 3) (a b c a' b' c' : ℝ) :
    om k a b c * om k a' b' c' = om k (a * a' + b * b') (a * b' + b * a') (c * c') := by
  ext i j
  fin_cases k <;> fin_cases i <;> fin_cases j <;> simp [om, Matrix.mul_apply, Fin.sum_univ_three] <;> ring

theorem om_one (k : Fin 3) : om k 1 0 1 = 1 := by
  ext i j
  fin_cases k <;> fin_cases i <;> fin_cases j <;> simp [om]

theorem om_transpose (k : Fin 3) (a b c : ℝ) : (om k a b c)ᵀ = om k a b c := by
  ext i j
  fin_cases k <;> fin_cases i <;> fin_cases j <;> simp [om]

theorem om_det (k : Fin 3) (a b c : ℝ) : (om k a b c).det = (a * a - b * b) * c := by
  rw [Matrix.det_fin_three]
  fin_cases k <;> simp [om] <;> ring

theorem om_inv (k : Fin 3) (hD : a * a - b * b ≠ 0) (hc : c ≠ 0) :
    (om k a b c)⁻¹ = om k (a / (a * a - b * b)) (-b / (a * a - b * b)) c⁻¹ := by
  apply Matrix.inv_eq_right_inv
  rw [om_mul, ← om_one k]
  congr 1
  · rw [show a * (a / (a * a - b * b)) + b * (-b / (a * a - b * b)) = (a * a - b * b) / (a * a - b * b) by ring, div_self hD]
  · ring
  · exact mul_inv_cancel₀ hc

theorem om_spd (k : Fin 3) (h1 : 0 < a + b) (h2 : 0 < a - b) (hc : 0 < c) : IsSPD (om k a b c) := by
  have e1 := Real.mul_self_sqrt h1.le
  have e2 := Real.mul_self_sqrt h2.le
  have e3 := Real.mul_self_sqrt hc.le
  have p1 := Real.sqrt_pos.2 h1
  have p2 := Real.sqrt_pos.2 h2
  have p3 := Real.sqrt_pos.2 hc
  set x := Real.sqrt (a + b)
  set y := Real.sqrt (a - b)
  set z := Real.sqrt c
  have h := spd_of_gram (T := om k ((x + y) / 2) ((x - y) / 2) z) (by
    rw [om_det]
    have : 0 < ((x + y) / 2 * ((x + y) / 2) - (x - y) / 2 * ((x - y) / 2)) * z := by
      have : (x + y) / 2 * ((x + y) / 2) - (x - y) / 2 * ((x - y) / 2) = x * y := by ring
      rw [this]; positivity
    exact this.ne')
  rw [om_transpose, om_mul] at h
  have g1 : (x + y) / 2 * ((x + y) / 2) + (x - y) / 2 * ((x - y) / 2) = a := by linear_combination (e1 + e2) / 2
  have g2 : (x + y) / 2 * ((x - y) / 2) + (x - y) / 2 * ((x + y) / 2) = b := by linear_combination (e1 - e2) / 2
  rwa [g1, g2, e3] at h

/-- the exchange of the two axes other than `k` -/
def swapAt (k : Fin 3) : Matrix (Fin 3) (Fin 3) ℤ :=
  Matrix.of fun i j => if i = k ∨ j = k ∨ i = j then 0 else 1

theorem om_eq (k : Fin 3) (a b c : ℝ) : om k a b c = a • 1 + (c - a) • toR (unitAt k) + b • toR (swapAt k) := by
  ext i j
  fin_cases k <;> fin_cases i <;> fin_cases j <;> simp [om, unitAt, swapAt, toR]

theorem om_row (k : Fin 3) (X : Mat3) (j : Fin 3) : (om k a b c * X) k j = c * X k j := by
  fin_cases k <;> simp [om, Matrix.mul_apply, Fin.sum_univ_three]

/-! ### symmetry and variants -/

/-- the size of the entries, as needed to tell symmetries from the rest -/
structure Wide (a b c : ℝ) : Prop where
  pos : 0 < a
  cpos : 0 < c
  blt : |b| ≤ a * (11 / 50)
  bgt : a / 250 ≤ |b|
  bc : |b| ≤ c * (1 / 2)
  cb : c / 250 ≤ |b|
  big : 1 / 250 ≤ |b|

theorem Wide.det (h : Wide a b c) : 0 < a * a - b * b := by
  have h1 := h.pos
  have h2 := abs_le.1 h.blt
  nlinarith

theorem Wide.spd (h : Wide a b c) (k : Fin 3) : IsSPD (om k a b c) := by
  have h1 := h.pos
  have h2 := abs_le.1 h.blt
  exact om_spd k (by linarith) (by linarith) h.cpos

theorem Wide.neg (h : Wide a b c) : Wide a (-b) c :=
  ⟨h.pos, h.cpos, by rw [abs_neg]; exact h.blt, by rw [abs_neg]; exact h.bgt, by rw [abs_neg]; exact h.bc,
    by rw [abs_neg]; exact h.cb, by rw [abs_neg]; exact h.big⟩

theorem om_turn {R : Matrix (Fin 3) (Fin 3) ℤ} (h1 : R * Rᵀ = 1) {k k' : Fin 3} {s : ℤ}
    (hE : R * unitAt k * Rᵀ = unitAt k') (hG : R * swapAt k * Rᵀ = s • swapAt k') :
    toR R * om k a b c * (toR R)ᵀ = om k' a (s * b) c := by
  have e1 : toR R * (toR R)ᵀ = 1 := by rw [← toR_transpose, ← toR_mul, h1, toR_one]
  have e2 : toR (s • swapAt k') = (s : ℝ) • toR (swapAt k') := by
    ext i j; simp only [toR, Matrix.map_apply, Matrix.smul_apply, smul_eq_mul, Int.cast_mul]
  rw [om_eq, om_eq, mul_add, mul_add, add_mul, add_mul, Matrix.mul_smul, Matrix.smul_mul, Matrix.mul_one, e1,
    Matrix.mul_smul, Matrix.smul_mul, Matrix.mul_smul, Matrix.smul_mul, ← toR_transpose, ← toR_mul, ← toR_mul,
    ← toR_mul, ← toR_mul, hE, hG, e2, smul_smul, mul_comm b]

theorem cubic_block : ∀ R ∈ cubicLaue, ∀ k : Fin 3, ∃ k' : Fin 3, R * unitAt k * Rᵀ = unitAt k' ∧
    (R * swapAt k * Rᵀ = (1 : ℤ) • swapAt k' ∨ R * swapAt k * Rᵀ = (-1 : ℤ) • swapAt k') := by
  unfold cubicLaue; decide +kernel

theorem cubic_block_transitive : ∀ k k' : Fin 3,
    (∃ R ∈ cubicLaue, R * unitAt k * Rᵀ = unitAt k' ∧ R * swapAt k * Rᵀ = (1 : ℤ) • swapAt k') ∧
    ∃ R ∈ cubicLaue, R * unitAt k * Rᵀ = unitAt k' ∧ R * swapAt k * Rᵀ = (-1 : ℤ) • swapAt k' := by
  unfold cubicLaue; decide +kernel

/-- what a cubic rotation can do to a block matrix -/
theorem cubic_cases : ∀ R ∈ cubicLaue, ∀ k : Fin 3,
    (R * unitAt k * Rᵀ = unitAt k ∧ R * swapAt k * Rᵀ = (1 : ℤ) • swapAt k) ∨
    (∃ l j : Fin 3, l ≠ k ∧ j ≠ k ∧ l ≠ j ∧ R k l ≠ 0 ∧ R k k = 0 ∧ R k j = 0) ∨
    (R * unitAt k * Rᵀ = unitAt k ∧ R * swapAt k * Rᵀ = (-1 : ℤ) • swapAt k ∧
      ∃ i q j : Fin 3, i ≠ k ∧ q ≠ k ∧ i ≠ q ∧ R q j ≠ 0 ∧ R i j = 0 ∧ R k j = 0) := by
  have h : ∀ R ∈ cubicLaue, ∀ k : Fin 3,
      (R * unitAt k * Rᵀ = unitAt k ∧ R * swapAt k * Rᵀ = (1 : ℤ) • swapAt k) ∨
      (∃ l j : Fin 3, (l != k && j != k && l != j && R k l != 0 && R k k == 0 && R k j == 0) = true) ∨
      (R * unitAt k * Rᵀ = unitAt k ∧ R * swapAt k * Rᵀ = (-1 : ℤ) • swapAt k ∧
        ∃ i q j : Fin 3, (i != k && q != k && i != q && R q j != 0 && R i j == 0 && R k j == 0) = true) := by
    unfold cubicLaue; decide +kernel
  simpa only [Bool.and_eq_true, bne_iff_ne, beq_iff_eq, ne_eq, and_assoc] using h

theorem cubic_four (k : Fin 3) : (cubicLaue.filter (fun R => decide
    (R * unitAt k * Rᵀ = unitAt k ∧ R * swapAt k * Rᵀ = (1 : ℤ) • swapAt k))).length = 4 := by
  unfold cubicLaue
  revert k
  decide +kernel

theorem om_sym (h : Wide a b c) (k : Fin 3) {R : Matrix (Fin 3) (Fin 3) ℤ} (h1 : R * Rᵀ = 1)
    (hR : R * unitAt k * Rᵀ = unitAt k ∧ R * swapAt k * Rᵀ = (1 : ℤ) • swapAt k) : InPointGroup (om k a b c) (toR R) := by
  have hE := (spd_det_pos (h.spd k)).ne'
  rw [inPointGroup_iff hE]
  have e1 : toR R * (toR R)ᵀ = 1 := by rw [← toR_transpose, ← toR_mul, h1, toR_one]
  refine ⟨e1, ?_⟩
  have e2 := om_turn (a := a) (b := b) (c := c) h1 hR.1 hR.2
  have e3 : toR R * om k a b c = om k a b c * toR R := by
    have := congrArg (· * toR R) e2
    simp only [Int.cast_one, one_mul] at this
    rwa [Matrix.mul_assoc, mul_eq_one_comm.1 e1, Matrix.mul_one] at this
  rw [e3, ← Matrix.mul_assoc, nonsing_inv_mul _ hE.isUnit, Matrix.one_mul]
  exact fun i j => ⟨R i j, rfl⟩

theorem far_abs {x : ℝ} (h1 : 1 / 10 ^ 4 ≤ |x|) (h2 : |x| ≤ 1 - 1 / 10 ^ 4) (z : ℤ) :
    1 / 10 ^ 8 + 1 / 10 ^ 5 * |(z : ℝ)| < |x - z| := by
  rcases abs_cases x with ⟨h, -⟩ | ⟨h, -⟩
  · rw [h] at h1 h2; exact far_ratio h1 h2 z
  · rw [h] at h1 h2
    have := far_ratio_neg h1 h2 z
    rwa [neg_neg] at this

theorem abs_unit {z : ℤ} (h0 : z ≠ 0) (h : z = 0 ∨ z = 1 ∨ z = -1) : |(z : ℝ)| = 1 := by
  rcases h with h | h | h
  · exact absurd h h0
  · rw [h]; norm_num
  · rw [h]; norm_num

theorem om_far (h : Wide a b c) (k : Fin 3) {R : Matrix (Fin 3) (Fin 3) ℤ} (hR : R ∈ cubicLaue)
    (hn : ¬ (R * unitAt k * Rᵀ = unitAt k ∧ R * swapAt k * Rᵀ = (1 : ℤ) • swapAt k)) :
    ∃ i j, ∀ z : ℤ, 1 / 10 ^ 8 + 1 / 10 ^ 5 * |(z : ℝ)| < |((om k a b c)⁻¹ * (toR R * om k a b c)) i j - z| := by
  have hD := h.det
  have hc := h.cpos
  have ha := h.pos
  have e1 : toR R * (toR R)ᵀ = 1 := by rw [← toR_transpose, ← toR_mul, cubic_ortho R hR, toR_one]
  rw [om_inv k hD.ne' hc.ne']
  rcases cubic_cases R hR k with hs | ⟨l, j, hl, hj, hlj, h1, h2, h3⟩ | ⟨hE, hG, i, q, j, hi, hq, hiq, h1, h2, h3⟩
  · exact absurd hs hn
  · refine ⟨k, j, fun z => ?_⟩
    have hv : (om k (a / (a * a - b * b)) (-b / (a * a - b * b)) c⁻¹ * (toR R * om k a b c)) k j = c⁻¹ * (R k l * b) := by
      rw [om_row, Matrix.mul_apply]
      congr 1
      obtain ⟨m, hm1, hm2, -, hs⟩ := third l j hlj
      rw [hs]
      obtain rfl : m = k := by
        clear * - hl hj hlj hm1 hm2
        revert hl hj hlj hm1 hm2; revert k l j m; decide
      simp [toR, h2, h3, om, hl, hj, hlj]
    rw [hv]
    have hab : |c⁻¹ * (R k l * b)| = |b| / c := by
      rw [abs_mul, abs_mul, abs_unit h1 (cubic_small R hR k l), abs_inv, abs_of_pos hc, one_mul, inv_mul_eq_div]
    apply far_abs <;> rw [hab]
    · rw [le_div_iff₀ hc]; linarith [h.cb]
    · rw [div_le_iff₀ hc]; linarith [h.bc]
  · refine ⟨i, j, fun z => ?_⟩
    have e2 := om_turn (a := a) (b := b) (c := c) (cubic_ortho R hR) hE hG
    have e3 : toR R * om k a b c = om k a (-b) c * toR R := by
      have := congrArg (· * toR R) e2
      simp only [Int.cast_neg, Int.cast_one, neg_mul, one_mul] at this
      rwa [Matrix.mul_assoc, mul_eq_one_comm.1 e1, Matrix.mul_one] at this
    have hv : (om k (a / (a * a - b * b)) (-b / (a * a - b * b)) c⁻¹ * (toR R * om k a b c)) i j =
        -(2 * a * b / (a * a - b * b)) * R q j := by
      rw [e3, ← Matrix.mul_assoc, om_mul, Matrix.mul_apply]
      obtain ⟨m, hm1, hm2, -, hs⟩ := third i q hiq
      rw [hs]
      obtain rfl : m = k := by
        clear * - hi hq hiq hm1 hm2
        revert hi hq hiq hm1 hm2; revert k i q m; decide
      simp only [toR, Matrix.map_apply, h2, h3, om, Matrix.of_apply, if_neg hi, if_neg hq, if_neg hiq, Int.cast_zero, mul_zero,
        zero_add, add_zero]
      congr 1
      ring
    rw [hv]
    have hab : |-(2 * a * b / (a * a - b * b)) * R q j| = 2 * a * |b| / (a * a - b * b) := by
      rw [abs_mul, abs_unit h1 (cubic_small R hR q j), abs_neg, abs_div, abs_mul, abs_of_pos hD, abs_of_pos (by linarith),
        mul_one]
    have hb2 : |b| * |b| = b * b := abs_mul_abs_self b
    have hb0 := abs_nonneg b
    apply far_abs <;> rw [hab]
    · rw [le_div_iff₀ hD]; nlinarith [h.bgt]
    · rw [div_le_iff₀ hD]; nlinarith [h.blt]

theorem om_hex_far (h : Wide a b c) (k : Fin 3) {Q : Mat3} (h0 : Q 0 0 = 1 / 2 ∨ Q 0 0 = -1 / 2)
    (h1 : Q 1 1 = Q 0 0 ∧ Q 0 1 = -Q 1 0 ∨ Q 1 1 = -Q 0 0 ∧ Q 0 1 = Q 1 0) (h3 : Q 0 1 * Q 0 1 = 3 / 4) :
    ∃ i j, ∀ z : ℤ, 1 / 10 ^ 8 + 1 / 10 ^ 5 * |(z : ℝ)| < |((om k a b c)⁻¹ * (Q * om k a b c)) i j - z| := by
  have hD := h.det
  have hc := h.cpos
  have ha := h.pos
  rw [om_inv k hD.ne' hc.ne']
  have half : ∀ x : ℝ, x = 1 / 2 ∨ x = -1 / 2 → ∀ z : ℤ, 1 / 10 ^ 8 + 1 / 10 ^ 5 * |(z : ℝ)| < |x - z| := by
    rintro x (rfl | rfl)
    · exact far_of_between 0 (by norm_num) (by norm_num) (by norm_num)
    · exact far_of_between (-1) (by norm_num) (by norm_num) (by norm_num)
  fin_cases k
  · refine ⟨0, 0, ?_⟩
    have : (om 0 (a / (a * a - b * b)) (-b / (a * a - b * b)) c⁻¹ * (Q * om 0 a b c)) 0 0 = Q 0 0 := by
      rw [om_row]
      simp [om, Matrix.mul_apply, Fin.sum_univ_three]
      field_simp
    show ∀ z : ℤ, _ < |(om 0 _ _ _ * (Q * om 0 a b c)) 0 0 - _|
    rw [this]
    exact half _ h0
  · refine ⟨1, 1, ?_⟩
    have : (om 1 (a / (a * a - b * b)) (-b / (a * a - b * b)) c⁻¹ * (Q * om 1 a b c)) 1 1 = Q 1 1 := by
      rw [om_row]
      simp [om, Matrix.mul_apply, Fin.sum_univ_three]
      field_simp
    show ∀ z : ℤ, _ < |(om 1 _ _ _ * (Q * om 1 a b c)) 1 1 - _|
    rw [this]
    refine half _ ?_
    rcases h1 with ⟨h1, -⟩ | ⟨h1, -⟩ <;> rw [h1] <;> rcases h0 with h0 | h0 <;> rw [h0] <;> norm_num
  · refine ⟨0, 0, ?_⟩
    show ∀ z : ℤ, _ < |(om 2 _ _ _ * (Q * om 2 a b c)) 0 0 - _|
    have hv : (om 2 (a / (a * a - b * b)) (-b / (a * a - b * b)) c⁻¹ * (Q * om 2 a b c)) 0 0 =
        (a * (Q 0 0 * a + Q 0 1 * b) - b * (Q 1 0 * a + Q 1 1 * b)) / (a * a - b * b) := by
      simp [om, Matrix.mul_apply, Fin.sum_univ_three]
      field_simp
      ring
    rw [hv]
    have hb1 := h.blt
    have hb2 : |b| * |b| = b * b := abs_mul_abs_self b
    have hb0 := abs_nonneg b
    have hs : |Q 0 1| ≤ 9 / 10 := by
      rw [← abs_of_pos (show (0 : ℝ) < 9 / 10 by norm_num)]
      apply sq_le_sq.1
      nlinarith
    have hbq : |Q 0 1 * b| ≤ a * (198 / 1000) := by
      rw [abs_mul]
      calc |Q 0 1| * |b| ≤ 9 / 10 * (a * (11 / 50)) := mul_le_mul hs hb1 hb0 (by norm_num)
        _ = _ := by ring
    have hq := abs_le.1 hbq
    have hbb : b * b ≤ a * a * (121 / 2500) := by rw [← hb2]; nlinarith
    have hbb0 : 0 ≤ b * b := mul_self_nonneg b
    rcases h1 with ⟨h1, h2⟩ | ⟨h1, h2⟩
    · have e : a * (Q 0 0 * a + Q 0 1 * b) - b * (Q 1 0 * a + Q 1 1 * b) = Q 0 0 * (a * a - b * b) + 2 * a * (Q 0 1 * b) := by
        rw [h1]; linear_combination (-(a * b)) * h2
      rw [e]
      rcases h0 with h0 | h0 <;> rw [h0]
      · refine far_of_between 0 (by norm_num) ?_ ?_
        · rw [le_div_iff₀ hD]; push_cast; nlinarith
        · rw [div_le_iff₀ hD]; push_cast; nlinarith
      · refine far_of_between (-1) (by norm_num) ?_ ?_
        · rw [le_div_iff₀ hD]; push_cast; nlinarith
        · rw [div_le_iff₀ hD]; push_cast; nlinarith
    · have e : a * (Q 0 0 * a + Q 0 1 * b) - b * (Q 1 0 * a + Q 1 1 * b) = Q 0 0 * (a * a + b * b) := by
        rw [h1, h2]; ring
      rw [e]
      rcases h0 with h0 | h0 <;> rw [h0]
      · refine far_of_between 0 (by norm_num) ?_ ?_
        · rw [le_div_iff₀ hD]; push_cast; nlinarith
        · rw [div_le_iff₀ hD]; push_cast; nlinarith
      · refine far_of_between (-1) (by norm_num) ?_ ?_
        · rw [le_div_iff₀ hD]; push_cast; nlinarith
        · rw [div_le_iff₀ hD]; push_cast; nlinarith

theorem om_reliable (h : Wide a b c) (k : Fin 3) (ht : t = .code ∨ t = .exact) :
    Reliable t (om k a b c) candidates3 := by
  rcases ht with rfl | rfl
  swap
  · exact .inl rfl
  refine .inr ⟨rfl, ?_⟩
  have hcub : ∀ R ∈ cubicLaue, InPointGroup (om k a b c) (toR R) ∨
      ∃ i j, ∀ z : ℤ, 1 / 10 ^ 8 + 1 / 10 ^ 5 * |(z : ℝ)| < |((om k a b c)⁻¹ * (toR R * om k a b c)) i j - z| := by
    intro R hR
    by_cases hk : R * unitAt k * Rᵀ = unitAt k ∧ R * swapAt k * Rᵀ = (1 : ℤ) • swapAt k
    · exact .inl (om_sym h k (cubic_ortho R hR) hk)
    · exact .inr (om_far h k hR hk)
  intro Q hQ
  rcases List.mem_append.mp hQ with hQ | hQ
  · obtain ⟨R, hR, rfl⟩ := List.mem_map.mp hQ
    exact hcub R hR
  · simp only [hexLaue, List.map_cons, List.map_nil, List.mem_cons, List.not_mem_nil, or_false,
      NMat.val] at hQ
    rcases hQ with rfl | rfl | rfl | rfl | rfl | rfl | rfl | rfl | rfl | rfl | rfl | rfl
    · exact hcub _ (by unfold cubicLaue; simp)
    · exact hcub _ (by unfold cubicLaue; simp)
    · exact hcub _ (by unfold cubicLaue; simp)
    · exact hcub _ (by unfold cubicLaue; simp)
    all_goals
      refine .inr (om_hex_far h k ?_ ?_ ?_)
      · first
          | (left; simp [hexC_eq]; done)
          | (right; simp [hexC_eq]; norm_num; done)
      · first
          | (left; simp; done)
          | (right; simp; done)
      · simpa using hexS_sq

theorem not_sym_of_far {E Q : Mat3} (hE : E.det ≠ 0)
    (hf : ∃ i j, ∀ z : ℤ, 1 / 10 ^ 8 + 1 / 10 ^ 5 * |(z : ℝ)| < |(E⁻¹ * (Q * E)) i j - z|) : ¬ InPointGroup E Q := by
  intro hp
  obtain ⟨i, j, hf⟩ := hf
  obtain ⟨z, hz⟩ := ((inPointGroup_iff hE).1 hp).2 i j
  have := hf z
  rw [hz, sub_self, abs_zero] at this
  have h2 := abs_nonneg (z : ℝ)
  norm_num at this
  linarith

open Classical in
theorem om_laue (h : Wide a b c) (k : Fin 3) (ht : t = .code ∨ t = .exact) :
    ∃ lg, Lat.laueGroup t ⟨3, om k a b c⟩ = .ok lg ∧ lg.length = 4 ∧ ∀ Q ∈ lg, Q ∈ cubicR := by
  have hE : (om k a b c).det ≠ 0 := (spd_det_pos (h.spd k)).ne'
  have hr := om_reliable h k ht
  have hG : Reliable t (om k a b c) ((cubicLaue.map NMat.int).map NMat.val) :=
    hr.mono fun Q hQ => by rw [map_int_val] at hQ; exact List.mem_append_left _ hQ
  have hH : Reliable t (om k a b c) (hexLaue.map NMat.val) :=
    hr.mono fun Q hQ => List.mem_append_right _ hQ
  have hlen : (((cubicLaue.map NMat.int).map NMat.val).filter
      (fun Q => decide (InPointGroup (om k a b c) Q))).length = 4 := by
    rw [map_int_val, List.filter_map, List.length_map]
    have : cubicLaue.filter ((fun Q => decide (InPointGroup (om k a b c) Q)) ∘ toR) =
        cubicLaue.filter (fun R => decide (R * unitAt k * Rᵀ = unitAt k ∧ R * swapAt k * Rᵀ = (1 : ℤ) • swapAt k)) := by
      refine List.filter_congr fun R hR => ?_
      simp only [Function.comp, decide_eq_decide]
      constructor
      · intro hp
        by_contra hc
        exact not_sym_of_far hE (om_far h k hR hc) hp
      · exact om_sym h k (cubic_ortho R hR)
    rw [this]
    exact cubic_four k
  have hhex : ((hexLaue.map NMat.val).filter (fun Q => decide (InPointGroup (om k a b c) Q))).length ≤ 4 := by
    have hn : ∀ Q ∈ (hexLaue.drop 4).map NMat.val, ¬ InPointGroup (om k a b c) Q := by
      intro Q hQ
      simp only [hexLaue, List.drop_succ_cons, List.drop_zero, List.map_cons, List.map_nil, List.mem_cons, List.not_mem_nil,
        or_false, NMat.val] at hQ
      rcases hQ with rfl | rfl | rfl | rfl | rfl | rfl | rfl | rfl
      all_goals
        refine not_sym_of_far hE (om_hex_far h k ?_ ?_ ?_)
        · first
            | (left; simp [hexC_eq]; done)
            | (right; simp [hexC_eq]; norm_num; done)
        · first
            | (left; simp; done)
            | (right; simp; done)
        · simpa using hexS_sq
    have h0 : ((hexLaue.drop 4).map NMat.val).filter (fun Q => decide (InPointGroup (om k a b c) Q)) = [] :=
      List.filter_eq_nil_iff.2 fun Q hQ => by simpa using hn Q hQ
    rw [← List.take_append_drop 4 hexLaue, List.map_append, List.filter_append, h0, List.append_nil]
    refine (List.length_filter_le _ _).trans ?_
    simp
  refine ⟨_, ?_, hlen, ?_⟩
  · rw [laueGroup_three, select_sym hE hG hH, if_neg (by omega)]
  · intro Q hQ
    have := (List.mem_filter.1 hQ).1
    rwa [map_int_val] at this

theorem om_reversible (h : Wide a b c) (k : Fin 3) (ht : t = .code ∨ t = .exact) :
    Mart.isReversible t ⟨some (om k a b c), cubicR⟩ = .ok true := by
  obtain ⟨lg, h1, h2, h3⟩ := om_laue h k ht
  have hl : cubicR.length = 24 := by simp [cubicR, cubicLaue]
  simp only [Mart.isReversible, lat_new_sq false (M := om k a b c) (spd_det_pos (h.spd k)).ne', h1]
  have : hasSubgroup t cubicR lg = true := by
    rw [C20_hassubgroup _ _ _ (by intro h; rw [h] at hl; simp at hl)]
    refine ⟨by rw [h2, hl]; norm_num, fun A hA => ⟨A, h3 A hA, allclose_self (tolOK_of ht) A⟩⟩
  rw [this, hl, h2]
  rfl

/-- two of the six stretches differ in an entry that is `±b` in one of them -/
theorem om_differ {k k' : Fin 3} {x y : ℝ} (hx : |x| = |b|) (hy : |y| = |b|) (hne : om k a x c ≠ om k' a y c) :
    ∃ i j, om k a x c i j = x ∧ (om k' a y c i j = 0 ∨ om k' a y c i j = -x) := by
  by_cases hk : k = k'
  · subst hk
    have hxy : y = -x := by
      rcases abs_eq_abs.1 (hx.trans hy.symm) with h | h
      · exact absurd (by rw [h]) hne
      · rw [h, neg_neg]
    subst hxy
    fin_cases k
    · exact ⟨1, 2, by simp [om], .inr (by simp [om])⟩
    · exact ⟨0, 2, by simp [om], .inr (by simp [om])⟩
    · exact ⟨0, 1, by simp [om], .inr (by simp [om])⟩
  · obtain ⟨j, h1, h2, -⟩ := third k k' hk
    exact ⟨k', j, by simp [om, h1, h2.symm, Ne.symm hk], .inl (by simp [om, h2])⟩

theorem om_sep (h : Wide a b c) (ht : t = .code ∨ t = .exact) {k k' : Fin 3} {x y : ℝ} (hx : |x| = |b|) (hy : |y| = |b|) :
    allclose t (om k a x c) (om k' a y c) ↔ om k a x c = om k' a y c := by
  rcases ht with rfl | rfl
  swap
  · exact allclose_exact _ _
  refine ⟨fun hc => ?_, fun he => he ▸ allclose_self tolOK_code _⟩
  by_contra hne
  obtain ⟨i, j, h1, h2⟩ := om_differ hx hy hne
  have c1 := hc i j
  have hb := h.big
  rw [h1] at c1
  rcases h2 with h2 | h2 <;> rw [h2] at c1
  · simp only [Tol.code, sub_zero, abs_zero, hx] at c1
    linarith
  · simp only [Tol.code, sub_neg_eq_add, abs_neg, hx, ← two_mul, abs_mul] at c1
    norm_num at c1
    linarith

theorem om_inj {k k' : Fin 3} {x y : ℝ} (h0 : b ≠ 0) (hx : |x| = |b|) (h : om k a x c = om k' a y c) :
    k = k' ∧ x = y := by
  have hx0 : x ≠ 0 := by intro h; rw [h, abs_zero] at hx; exact h0 (abs_eq_zero.1 hx.symm)
  have hk : k = k' := by
    by_contra hk
    obtain ⟨j, h1, h2, -⟩ := third k k' hk
    have := congrFun (congrFun h k') j
    simp [om, h1, h2, h2.symm, Ne.symm hk] at this
    exact hx0 this
  subst hk
  refine ⟨rfl, ?_⟩
  fin_cases k
  · simpa [om] using congrFun (congrFun h 1) 2
  · simpa [om] using congrFun (congrFun h 0) 2
  · simpa [om] using congrFun (congrFun h 0) 1

theorem om_orbit {R : Matrix (Fin 3) (Fin 3) ℤ} (hR : R ∈ cubicLaue) (k : Fin 3) :
    ∃ k' x, (x = b ∨ x = -b) ∧ toR R * om k a b c * (toR R)ᵀ = om k' a x c := by
  obtain ⟨k', hE, hG | hG⟩ := cubic_block R hR k
  · exact ⟨k', b, .inl rfl, by rw [om_turn (cubic_ortho R hR) hE hG]; simp⟩
  · exact ⟨k', -b, .inr rfl, by rw [om_turn (cubic_ortho R hR) hE hG]; simp⟩

theorem om_variants (ht : t = .code ∨ t = .exact) (h : Wide a b c) (k : Fin 3) :
    ∃ vs, Mart.getVariants t ⟨some (om k a b c), cubicR⟩ = .ok vs ∧ vs.length = 6 ∧ vs.Nodup ∧
      vs.head? = some (om k a b c) ∧ ∀ V, V ∈ vs ↔ ∃ k' x, (x = b ∨ x = -b) ∧ V = om k' a x c := by
  have hab : ∀ {x}, x = b ∨ x = -b → |x| = |b| := by rintro x (rfl | rfl) <;> simp
  have hs := variants_spec (t := t) (U := om k a b c) cubicR_group cubicR_nodup cubicR_ortho (by
    intro P hP Q hQ
    obtain ⟨R, hR, rfl⟩ := List.mem_map.1 hP
    obtain ⟨S, hS, rfl⟩ := List.mem_map.1 hQ
    obtain ⟨k1, x1, e1, h1⟩ := om_orbit (a := a) (b := b) (c := c) hR k
    obtain ⟨k2, x2, e2, h2⟩ := om_orbit (a := a) (b := b) (c := c) hS k
    rw [h1, h2]
    exact om_sep h ht (hab e1) (hab e2))
  have horb : ∀ V, V ∈ (variantLoop t (om k a b c) cubicR).1 ↔ ∃ k' x, (x = b ∨ x = -b) ∧ V = om k' a x c := by
    intro V
    rw [hs.orbit]
    constructor
    · rintro ⟨Q, hQ, rfl⟩
      obtain ⟨R, hR, rfl⟩ := List.mem_map.1 hQ
      exact om_orbit hR k
    · rintro ⟨k', x, rfl | rfl, rfl⟩
      · obtain ⟨⟨R, hR, hE, hG⟩, -⟩ := cubic_block_transitive k k'
        exact ⟨toR R, List.mem_map_of_mem hR, by rw [om_turn (cubic_ortho R hR) hE hG]; simp⟩
      · obtain ⟨-, R, hR, hE, hG⟩ := cubic_block_transitive k k'
        exact ⟨toR R, List.mem_map_of_mem hR, by rw [om_turn (cubic_ortho R hR) hE hG]; simp⟩
  have hb0 : b ≠ 0 := by
    rintro rfl
    have := h.big
    norm_num at this
  refine ⟨_, ?_, ?_, hs.nodup, hs.first, horb⟩
  · simp [Mart.getVariants, Mart.calcVariants, om_reversible h k ht]
  · have hp : List.Perm (variantLoop t (om k a b c) cubicR).1
        (((List.finRange 3).product [true, false]).map fun p => om p.1 a (if p.2 then b else -b) c) := by
      have hite : ∀ v : Bool, |if v = true then b else -b| = |b| := by intro v; cases v <;> simp
      refine (List.perm_ext_iff_of_nodup hs.nodup ?_).2 fun V => ?_
      · refine List.Nodup.map_on ?_ (by decide)
        rintro ⟨k1, v1⟩ - ⟨k2, v2⟩ - he
        obtain ⟨rfl, hv⟩ := om_inj hb0 (hite v1) he
        have : v1 = v2 := by
          cases v1 <;> cases v2 <;> simp at hv ⊢
          · exact hb0 (by linarith)
          · exact hb0 (by linarith)
        rw [this]
      · rw [horb, List.mem_map]
        constructor
        · rintro ⟨k', x, rfl | rfl, rfl⟩
          · exact ⟨(k', true), by simp [List.product], by simp⟩
          · exact ⟨(k', false), by simp [List.product], by simp⟩
        · rintro ⟨⟨k', v⟩, -, rfl⟩
          cases v
          · exact ⟨k', -b, .inr rfl, by simp⟩
          · exact ⟨k', b, .inl rfl, by simp⟩
    rw [hp.length_eq, List.length_map]
    rfl

theorem clearly_wide (h : ClearlyOrthorhombic α β γ) {σ : ℝ} (hσ : σ = 1 ∨ σ = -1) :
    Wide ((α + γ) / 2) (σ * ((α - γ) / 2)) β := by
  obtain ⟨⟨a1, a2⟩, ⟨b1, b2⟩, ⟨c1, c2⟩, -, hd, -⟩ := h
  have hs : |σ * ((α - γ) / 2)| = |α - γ| / 2 := by
    rw [abs_mul, abs_div, abs_two]
    rcases hσ with rfl | rfl <;> simp
  have hu : |α - γ| ≤ (α + γ) * (11 / 50) := by rw [abs_le]; constructor <;> linarith
  have hu' : |α - γ| ≤ 9 / 20 := by rw [abs_le]; constructor <;> linarith
  constructor <;> (try rw [hs]) <;> linarith

/-- **C104**, variants: `getvariants()` of a martensite with an orthorhombic stretch has six elements, one for each cube
axis and each of the two ways to choose the face diagonals, the given one first. -/
theorem C104_variants (ht : t = .code ∨ t = .exact) (h : ClearlyOrthorhombic α β γ) (k : Fin 3) {σ : ℝ}
    (hσ : σ = 1 ∨ σ = -1) :
    ∃ vs, Mart.getVariants t ⟨some (orthoStretch α β γ k σ), cubicR⟩ = .ok vs ∧ vs.length = 6 ∧ vs.Nodup ∧
      vs.head? = some (orthoStretch α β γ k σ) ∧
      ∀ V, V ∈ vs ↔ ∃ k' σ', (σ' = 1 ∨ σ' = -1) ∧ V = orthoStretch α β γ k' σ' := by
  obtain ⟨vs, h1, h2, h3, h4, h5⟩ := om_variants ht (clearly_wide h hσ) k
  refine ⟨vs, h1, h2, h3, h4, fun V => ?_⟩
  rw [h5]
  constructor
  · rintro ⟨k', x, hx, rfl⟩
    rcases hσ with rfl | rfl <;> rcases hx with rfl | rfl
    · exact ⟨k', 1, .inl rfl, rfl⟩
    · exact ⟨k', -1, .inr rfl, by rw [ortho_om]; congr 1; ring⟩
    · exact ⟨k', -1, .inr rfl, rfl⟩
    · exact ⟨k', 1, .inl rfl, by rw [ortho_om]; congr 1; ring⟩
  · rintro ⟨k', σ', hσ', rfl⟩
    refine ⟨k', σ' * ((α - γ) / 2), ?_, rfl⟩
    rcases hσ with rfl | rfl <;> rcases hσ' with rfl | rfl
    · exact .inl rfl
    · exact .inr (by ring)
    · exact .inr (by ring)
    · exact .inl rfl

/-- **C104**, through the API: `Martensite().setU(a, b, c)` makes the orthorhombic stretch. -/
theorem C104_setU (ht : t = .code ∨ t = .exact) (h : ClearlyOrthorhombic α β γ) :
    ∃ m vs, Mart.setU ⟨none, cubicR⟩ [.num ((α + γ) / 2), .num ((α - γ) / 2), .num β] = .ok m ∧
      m.getU = .ok (orthoStretch α β γ 2 1) ∧ m.getVariants t = .ok vs ∧ vs.length = 6 ∧ vs.Nodup ∧
      ∀ V, V ∈ vs ↔ ∃ k σ, (σ = 1 ∨ σ = -1) ∧ V = orthoStretch α β γ k σ := by
  obtain ⟨vs, h1, h2, h3, -, h4⟩ := C104_variants ht h 2 (σ := 1) (.inl rfl)
  have hU : !![(α + γ) / 2, (α - γ) / 2, 0; (α - γ) / 2, (α + γ) / 2, 0; 0, 0, β] = orthoStretch α β γ 2 1 := by
    ext i j
    fin_cases i <;> fin_cases j <;> simp [orthoStretch]
  have hs := (clearly_wide h (σ := 1) (.inl rfl)).spd 2
  rw [← ortho_om] at hs
  refine ⟨⟨some (orthoStretch α β γ 2 1), cubicR⟩, vs, ?_, rfl, h1, h2, h3, h4⟩
  simp only [Mart.setU, uOf, hU]
  rw [if_neg (not_not.2 hs.1.symm), if_neg (not_not.2 (spd_det_pos hs))]

end Verif.Props
