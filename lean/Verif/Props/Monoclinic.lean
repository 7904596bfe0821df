import Verif.Spec.Monoclinic
import Verif.Props.OrthoTwins

/-!
# Cubic to monoclinic transformations

C105: twelve variants.
-/

namespace Verif.Props

open Matrix Verif.Model Verif.Spec Verif.Lemmas

local notation "Mat3" => Matrix (Fin 3) (Fin 3) ℝ

variable {p q r d s : ℝ} {t : Tol} {i j k : Fin 3}

/-! ### matrices of one block -/

/-- `p`, `q`, `d` on the diagonal, `s` between the first two -/
noncomputable def mm (i j : Fin 3) (p q s d : ℝ) : Mat3 :=
  Matrix.of fun l m =>
    if l = i then (if m = i then p else if m = j then s else 0)
    else if l = j then (if m = j then q else if m = i then s else 0)
    else if m = l then d else 0

theorem mono_mm (i j : Fin 3) (σ : ℝ) : monoStretch p q r d i j σ = mm i j p q (σ * r) d := rfl

/-- `i`, `j`, `k` are the three axes -/
structure Axes (i j k : Fin 3) : Prop where
  ij : i ≠ j
  ik : i ≠ k
  jk : j ≠ k

theorem Axes.all (h : Axes i j k) (l : Fin 3) : l = i ∨ l = j ∨ l = k := by
  obtain ⟨h1, h2, h3⟩ := h
  revert h1 h2 h3
  simp only [ne_eq, Fin.ext_iff]
  omega

theorem Axes.sum (h : Axes i j k) (f : Fin 3 → ℝ) : ∑ l, f l = f i + f j + f k := by
  obtain ⟨m, h1, h2, -, hs⟩ := third i j h.ij
  rw [hs, third_unique i j k m h.ij h.ik h.jk h1 h2]

theorem Axes.swap (h : Axes i j k) : Axes j i k := ⟨h.ij.symm, h.jk, h.ik⟩

theorem Axes.rot (h : Axes i j k) : Axes j k i := ⟨h.jk, h.ij.symm, h.ik.symm⟩

theorem axes_exist (h : i ≠ j) : ∃ k, Axes i j k := by
  obtain ⟨k, h1, h2, -⟩ := third i j h
  exact ⟨k, h, h1.symm, h2.symm⟩

theorem mm_at (h : Axes i j k) (p q s d : ℝ) : mm i j p q s d i i = p ∧ mm i j p q s d i j = s ∧
    mm i j p q s d i k = 0 ∧ mm i j p q s d j i = s ∧ mm i j p q s d j j = q ∧ mm i j p q s d j k = 0 ∧
    mm i j p q s d k i = 0 ∧ mm i j p q s d k j = 0 ∧ mm i j p q s d k k = d := by
  obtain ⟨h1, h2, h3⟩ := h
  simp [mm, h1, h1.symm, h2, h2.symm, h3, h3.symm]

theorem mm_vec (h : Axes i j k) (p q s d : ℝ) (x : V3) : (mm i j p q s d *ᵥ x) i = p * x i + s * x j ∧
    (mm i j p q s d *ᵥ x) j = s * x i + q * x j ∧ (mm i j p q s d *ᵥ x) k = d * x k := by
  obtain ⟨e1, e2, e3, e4, e5, e6, e7, e8, e9⟩ := mm_at h p q s d
  refine ⟨?_, ?_, ?_⟩ <;> rw [mulVec, dotProduct, h.sum] <;> simp [*]

theorem mm_transpose (h : i ≠ j) (p q s d : ℝ) : (mm i j p q s d)ᵀ = mm i j p q s d := by
  obtain ⟨k, h⟩ := axes_exist h
  obtain ⟨e1, e2, e3, e4, e5, e6, e7, e8, e9⟩ := mm_at h p q s d
  ext l m
  rw [Matrix.transpose_apply]
  rcases h.all l with rfl | rfl | rfl <;> rcases h.all m with rfl | rfl | rfl <;> simp [*]

theorem mm_sq (h : i ≠ j) (p q s d : ℝ) :
    mm i j p q s d * mm i j p q s d = mm i j (p * p + s * s) (q * q + s * s) (s * (p + q)) (d * d) := by
  obtain ⟨k, h⟩ := axes_exist h
  obtain ⟨e1, e2, e3, e4, e5, e6, e7, e8, e9⟩ := mm_at h p q s d
  obtain ⟨f1, f2, f3, f4, f5, f6, f7, f8, f9⟩ := mm_at h (p * p + s * s) (q * q + s * s) (s * (p + q)) (d * d)
  ext l m
  rw [Matrix.mul_apply, h.sum]
  rcases h.all l with rfl | rfl | rfl <;> rcases h.all m with rfl | rfl | rfl <;> simp [*] <;> ring

theorem mm_inv (h : i ≠ j) (hD : p * q - s * s ≠ 0) (hd : d ≠ 0) :
    (mm i j p q s d)⁻¹ = mm i j (q / (p * q - s * s)) (p / (p * q - s * s)) (-s / (p * q - s * s)) d⁻¹ := by
  apply Matrix.inv_eq_right_inv
  obtain ⟨k, h⟩ := axes_exist h
  obtain ⟨e1, e2, e3, e4, e5, e6, e7, e8, e9⟩ := mm_at h p q s d
  obtain ⟨f1, f2, f3, f4, f5, f6, f7, f8, f9⟩ :=
    mm_at h (q / (p * q - s * s)) (p / (p * q - s * s)) (-s / (p * q - s * s)) d⁻¹
  have g1 : p * (q / (p * q - s * s)) + s * (-s / (p * q - s * s)) = 1 := by
    rw [← div_self hD]; ring
  have g2 : s * (-s / (p * q - s * s)) + q * (p / (p * q - s * s)) = 1 := by
    rw [← div_self hD]; ring
  ext l m
  rw [Matrix.mul_apply, h.sum]
  rcases h.all l with rfl | rfl | rfl <;> rcases h.all m with rfl | rfl | rfl
  · simp [*]
  · simp [*]; ring
  · simp [*, h.ik]
  · simp [*, h.ij.symm]; ring
  · simp [*]
  · simp [*, h.jk]
  · simp [*, h.ik.symm]
  · simp [*, h.jk.symm]
  · simp [*]

/-- the size of the entries -/
structure Mono (p q s d : ℝ) : Prop where
  p1 : 4 / 5 ≤ p
  p2 : p ≤ 5 / 4
  q1 : 4 / 5 ≤ q
  q2 : q ≤ 5 / 4
  d1 : 4 / 5 ≤ d
  d2 : d ≤ 5 / 4
  pq : 1 / 100 ≤ |p - q|
  s1 : 1 / 100 ≤ |s|
  s2 : |s| ≤ 1 / 5

theorem clearly_mono (h : ClearlyMonoclinic p q r d) {σ : ℝ} (hσ : σ = 1 ∨ σ = -1) : Mono p q (σ * r) d := by
  obtain ⟨⟨h1, h2⟩, ⟨h3, h4⟩, ⟨h5, h6⟩, h7, h8, h9⟩ := h
  have : |σ * r| = |r| := by rcases hσ with rfl | rfl <;> simp
  exact ⟨h1, h2, h3, h4, h5, h6, h7, this ▸ h8, this ▸ h9⟩

theorem Mono.turn (h : Mono p q s d) {y : ℝ} (hy : |y| = |s|) : Mono p q y d :=
  ⟨h.p1, h.p2, h.q1, h.q2, h.d1, h.d2, h.pq, hy ▸ h.s1, hy ▸ h.s2⟩

theorem Mono.swap (h : Mono p q s d) : Mono q p s d :=
  ⟨h.q1, h.q2, h.p1, h.p2, h.d1, h.d2, abs_sub_comm p q ▸ h.pq, h.s1, h.s2⟩

theorem Mono.ss (h : Mono p q s d) : 1 / 10 ^ 4 ≤ s * s ∧ s * s ≤ 1 / 25 := by
  have h1 := h.s1
  have h2 := h.s2
  rw [← abs_mul_abs_self]
  constructor <;> nlinarith

theorem Mono.det (h : Mono p q s d) : 3 / 5 ≤ p * q - s * s ∧ p * q - s * s ≤ 25 / 16 := by
  have := h.ss
  obtain ⟨h1, h2, h3, h4, -⟩ := h
  constructor <;> nlinarith

theorem Mono.spd (h : Mono p q s d) (hij : i ≠ j) : IsSPD (mm i j p q s d) := by
  refine ⟨mm_transpose hij _ _ _ _, fun x hx => ?_⟩
  obtain ⟨k, ha⟩ := axes_exist hij
  obtain ⟨e1, e2, e3⟩ := mm_vec ha p q s d x
  rw [dotProduct, ha.sum, e1, e2, e3]
  have hpos : 0 < x i * x i + x j * x j + x k * x k := by
    by_contra hn
    have g1 := mul_self_nonneg (x i)
    have g2 := mul_self_nonneg (x j)
    have g3 := mul_self_nonneg (x k)
    refine hx (funext fun l => ?_)
    rcases ha.all l with rfl | rfl | rfl <;> exact mul_self_eq_zero.1 (by linarith)
  have h1 := h.p1
  have h2 := h.q1
  have h3 := h.d1
  have h4 := abs_le.1 h.s2
  nlinarith [mul_nonneg (show 0 ≤ 1 / 5 + s by linarith) (mul_self_nonneg (x i + x j)),
    mul_nonneg (show 0 ≤ 1 / 5 - s by linarith) (mul_self_nonneg (x i - x j)),
    mul_nonneg (show 0 ≤ p - 4 / 5 by linarith) (mul_self_nonneg (x i)),
    mul_nonneg (show 0 ≤ q - 4 / 5 by linarith) (mul_self_nonneg (x j)),
    mul_nonneg (show 0 ≤ d - 4 / 5 by linarith) (mul_self_nonneg (x k))]

/-! ### symmetry and variants -/

/-- one at the two places between `i` and `j` -/
def offAt (i j : Fin 3) : Matrix (Fin 3) (Fin 3) ℤ :=
  Matrix.of fun l m => if l = i ∧ m = j ∨ l = j ∧ m = i then 1 else 0

theorem mm_eq (h : i ≠ j) (p q s d : ℝ) : mm i j p q s d =
    d • 1 + (p - d) • toR (unitAt i) + (q - d) • toR (unitAt j) + s • toR (offAt i j) := by
  obtain ⟨k, h⟩ := axes_exist h
  obtain ⟨e1, e2, e3, e4, e5, e6, e7, e8, e9⟩ := mm_at h p q s d
  obtain ⟨h1, h2, h3⟩ := h
  ext l m
  rcases Axes.all ⟨h1, h2, h3⟩ l with rfl | rfl | rfl <;> rcases Axes.all ⟨h1, h2, h3⟩ m with rfl | rfl | rfl <;>
    simp [*, unitAt, offAt, toR, Matrix.one_apply, h1.symm, h2.symm, h3.symm]

theorem mm_turn {R : Matrix (Fin 3) (Fin 3) ℤ} (h1 : R * Rᵀ = 1) {i' j' : Fin 3} (hij : i ≠ j) (hij' : i' ≠ j') {e : ℤ}
    (hi : R * unitAt i * Rᵀ = unitAt i') (hj : R * unitAt j * Rᵀ = unitAt j')
    (ho : R * offAt i j * Rᵀ = e • offAt i' j') :
    toR R * mm i j p q s d * (toR R)ᵀ = mm i' j' p q (e * s) d := by
  have e2 : toR (e • offAt i' j') = (e : ℝ) • toR (offAt i' j') := by
    ext i j; simp only [toR, Matrix.map_apply, Matrix.smul_apply, smul_eq_mul, Int.cast_mul]
  rw [mm_eq hij, mm_eq hij']
  simp only [mul_add, add_mul, Matrix.mul_smul, Matrix.smul_mul, Matrix.mul_one, ← toR_transpose, ← toR_mul, h1, toR_one, hi, hj,
    ho, e2, smul_smul, mul_comm s]

theorem cubic_mono : ∀ R ∈ cubicLaue, ∀ i j : Fin 3, i ≠ j → ∃ i' j' : Fin 3, i' ≠ j' ∧
    R * unitAt i * Rᵀ = unitAt i' ∧ R * unitAt j * Rᵀ = unitAt j' ∧
    (R * offAt i j * Rᵀ = (1 : ℤ) • offAt i' j' ∨ R * offAt i j * Rᵀ = (-1 : ℤ) • offAt i' j') := by
  unfold cubicLaue; decide +kernel

theorem cubic_mono_transitive : ∀ i j : Fin 3, i ≠ j → ∀ i' j' : Fin 3, i' ≠ j' →
    (∃ R ∈ cubicLaue, R * unitAt i * Rᵀ = unitAt i' ∧ R * unitAt j * Rᵀ = unitAt j' ∧
      R * offAt i j * Rᵀ = (1 : ℤ) • offAt i' j') ∧
    ∃ R ∈ cubicLaue, R * unitAt i * Rᵀ = unitAt i' ∧ R * unitAt j * Rᵀ = unitAt j' ∧
      R * offAt i j * Rᵀ = (-1 : ℤ) • offAt i' j' := by
  unfold cubicLaue; decide +kernel

/-- `R` leaves the stretches with the axes `i`, `j` unchanged -/
def Keeps (R : Matrix (Fin 3) (Fin 3) ℤ) (i j : Fin 3) : Prop :=
  R * unitAt i * Rᵀ = unitAt i ∧ R * unitAt j * Rᵀ = unitAt j ∧ R * offAt i j * Rᵀ = (1 : ℤ) • offAt i j

instance (R : Matrix (Fin 3) (Fin 3) ℤ) (i j : Fin 3) : Decidable (Keeps R i j) := by unfold Keeps; infer_instance

theorem cubic_mono_cases : ∀ R ∈ cubicLaue, ∀ i j k : Fin 3, i ≠ j → i ≠ k → j ≠ k →
    Keeps R i j ∨ (R k i ≠ 0 ∧ R k j = 0 ∧ R k k = 0) ∨ (R k j ≠ 0 ∧ R k i = 0 ∧ R k k = 0) ∨
    (R i j = 0 ∧ R j i = 0 ∧ R i k = 0 ∧ R j k = 0 ∧ R j j = -R i i ∧ R i i ≠ 0) ∨
    (R i i = 0 ∧ R j j = 0 ∧ R i k = 0 ∧ R j k = 0 ∧ R j i = R i j ∧ R i j ≠ 0) ∨
    (R i i = 0 ∧ R j j = 0 ∧ R i k = 0 ∧ R j k = 0 ∧ R j i = -R i j ∧ R i j ≠ 0) := by
  have h : ∀ R ∈ cubicLaue, ∀ i j k : Fin 3, i ≠ j → i ≠ k → j ≠ k →
      Keeps R i j ∨ (R k i != 0 && R k j == 0 && R k k == 0) = true ∨ (R k j != 0 && R k i == 0 && R k k == 0) = true ∨
      (R i j == 0 && R j i == 0 && R i k == 0 && R j k == 0 && R j j == -R i i && R i i != 0) = true ∨
      (R i i == 0 && R j j == 0 && R i k == 0 && R j k == 0 && R j i == R i j && R i j != 0) = true ∨
      (R i i == 0 && R j j == 0 && R i k == 0 && R j k == 0 && R j i == -R i j && R i j != 0) = true := by
    unfold cubicLaue; decide +kernel
  simpa only [Bool.and_eq_true, bne_iff_ne, beq_iff_eq, and_assoc] using h

theorem cubic_two : ∀ i j : Fin 3, i ≠ j → (cubicLaue.filter (fun R => decide (Keeps R i j))).length = 2 := by
  unfold cubicLaue; decide +kernel

theorem mm_sym (h : Mono p q s d) (hij : i ≠ j) {R : Matrix (Fin 3) (Fin 3) ℤ} (h1 : R * Rᵀ = 1) (hR : Keeps R i j) :
    InPointGroup (mm i j p q s d) (toR R) := by
  have hE := (spd_det_pos (h.spd hij)).ne'
  rw [inPointGroup_iff hE]
  have e1 : toR R * (toR R)ᵀ = 1 := by rw [← toR_transpose, ← toR_mul, h1, toR_one]
  refine ⟨e1, ?_⟩
  have e2 := mm_turn (p := p) (q := q) (s := s) (d := d) h1 hij hij hR.1 hR.2.1 hR.2.2
  have e3 : toR R * mm i j p q s d = mm i j p q s d * toR R := by
    have := congrArg (· * toR R) e2
    simp only [Int.cast_one, one_mul] at this
    rwa [Matrix.mul_assoc, mul_eq_one_comm.1 e1, Matrix.mul_one] at this
  rw [e3, ← Matrix.mul_assoc, nonsing_inv_mul _ hE.isUnit, Matrix.one_mul]
  exact fun i j => ⟨R i j, rfl⟩

theorem far_abs_two {x : ℝ} (h1 : 1 + 1 / 10 ^ 4 ≤ |x|) (h2 : |x| ≤ 2 - 1 / 10 ^ 4) (z : ℤ) :
    1 / 10 ^ 8 + 1 / 10 ^ 5 * |(z : ℝ)| < |x - z| := by
  have key : |(z : ℝ)| ≤ 1 ∨ 2 ≤ |(z : ℝ)| := by
    by_cases h : |z| ≤ 1
    · exact .inl (by exact_mod_cast h)
    · exact .inr (by exact_mod_cast (show (2 : ℤ) ≤ |z| by omega))
  have h3 := abs_sub_abs_le_abs_sub x (z : ℝ)
  have h4 := abs_sub_abs_le_abs_sub (z : ℝ) x
  rw [abs_sub_comm] at h4
  rcases key with h | h
  · linarith
  · linarith

theorem mono_scalar (h : Mono p q s d) : (1 / 10 ^ 4 ≤ |s| / d ∧ |s| / d ≤ 1 - 1 / 10 ^ 4) ∧
    (1 / 10 ^ 4 ≤ 2 * q * |s| / (p * q - s * s) ∧ 2 * q * |s| / (p * q - s * s) ≤ 1 - 1 / 10 ^ 4) ∧
    1 / 10 ^ 4 ≤ (p + q) * |s| / (p * q - s * s) ∧ (p + q) * |s| / (p * q - s * s) ≤ 1 - 1 / 10 ^ 4 := by
  obtain ⟨D1, D2⟩ := h.det
  obtain ⟨S1, S2⟩ := h.ss
  have hD : 0 < p * q - s * s := by linarith
  obtain ⟨hp1, hp2, hq1, hq2, hd1, hd2, -, hs1, hs2⟩ := h
  have hd : 0 < d := by linarith
  have hpq : 4 / 5 * q ≤ p * q := by nlinarith
  have hpq' : 4 / 5 * p ≤ p * q := by nlinarith
  refine ⟨⟨?_, ?_⟩, ⟨?_, ?_⟩, ?_, ?_⟩
  · rw [le_div_iff₀ hd]; linarith
  · rw [div_le_iff₀ hd]; linarith
  · rw [le_div_iff₀ hD]
    have : 1 / 100 * q ≤ q * |s| := by nlinarith
    linarith
  · rw [div_le_iff₀ hD]
    have : q * |s| ≤ q * (1 / 5) := mul_le_mul_of_nonneg_left hs2 (by linarith)
    linarith
  · rw [le_div_iff₀ hD]
    have : (p + q) * (1 / 100) ≤ (p + q) * |s| := mul_le_mul_of_nonneg_left hs1 (by linarith)
    linarith
  · rw [div_le_iff₀ hD]
    have : (p + q) * |s| ≤ (p + q) * (1 / 5) := mul_le_mul_of_nonneg_left hs2 (by linarith)
    linarith

theorem mono_ratio (h : Mono p q s d) {x : ℝ} (hx : |x| = (q * q - s * s) / (p * q - s * s)) (z : ℤ) :
    1 / 10 ^ 8 + 1 / 10 ^ 5 * |(z : ℝ)| < |x - z| := by
  obtain ⟨D1, D2⟩ := h.det
  obtain ⟨S1, S2⟩ := h.ss
  have hD : 0 < p * q - s * s := by linarith
  obtain ⟨hp1, hp2, hq1, hq2, hd1, hd2, hlt, hs1, hs2⟩ := h
  have hqq : 16 / 25 ≤ q * q := by nlinarith
  rcases abs_cases (p - q) with ⟨hpq, -⟩ | ⟨hpq, -⟩ <;> rw [hpq] at hlt
  · apply far_abs <;> rw [hx]
    · rw [le_div_iff₀ hD]; linarith
    · rw [div_le_iff₀ hD]
      have : 1 / 100 * q ≤ (p - q) * q := mul_le_mul_of_nonneg_right hlt (by linarith)
      linarith
  · apply far_abs_two <;> rw [hx]
    · rw [le_div_iff₀ hD]
      have : 1 / 100 * q ≤ -(p - q) * q := mul_le_mul_of_nonneg_right hlt (by linarith)
      linarith
    · rw [div_le_iff₀ hD]
      have h1 : 4 / 5 * q ≤ p * q := mul_le_mul_of_nonneg_right hp1 (by linarith)
      have h2 : q * q ≤ 5 / 4 * q := mul_le_mul_of_nonneg_right hq2 (by linarith)
      linarith

theorem mm_far (h : Mono p q s d) (hij : i ≠ j) {R : Matrix (Fin 3) (Fin 3) ℤ} (hR : R ∈ cubicLaue)
    (hn : ¬ Keeps R i j) :
    ∃ l m, ∀ z : ℤ, 1 / 10 ^ 8 + 1 / 10 ^ 5 * |(z : ℝ)| < |((mm i j p q s d)⁻¹ * (toR R * mm i j p q s d)) l m - z| := by
  obtain ⟨k, ha⟩ := axes_exist hij
  obtain ⟨⟨b1, b2⟩, ⟨b3, b4⟩, b5, b6⟩ := mono_scalar h
  have hratio := fun {x : ℝ} => mono_ratio h (x := x)
  have hD : 0 < p * q - s * s := by linarith [h.det.1]
  have hd : 0 < d := by linarith [h.d1]
  have hp : 0 < p := by linarith [h.p1]
  have hq : 0 < q := by linarith [h.q1]
  have hqs : 0 < q * q - s * s := by nlinarith [h.ss.2, h.q1]
  clear h
  rw [mm_inv hij hD.ne' hd.ne']
  obtain ⟨e1, e2, e3, e4, e5, e6, e7, e8, e9⟩ := mm_at ha p q s d
  obtain ⟨f1, f2, f3, f4, f5, f6, f7, f8, f9⟩ :=
    mm_at ha (q / (p * q - s * s)) (p / (p * q - s * s)) (-s / (p * q - s * s)) d⁻¹
  have ent : ∀ l m, (mm i j (q / (p * q - s * s)) (p / (p * q - s * s)) (-s / (p * q - s * s)) d⁻¹ *
      (toR R * mm i j p q s d)) l m = ∑ a, mm i j (q / (p * q - s * s)) (p / (p * q - s * s)) (-s / (p * q - s * s)) d⁻¹ l a *
        ∑ b, (R a b : ℝ) * mm i j p q s d b m := fun l m => by
    rw [Matrix.mul_apply]
    refine Finset.sum_congr rfl fun a _ => ?_
    rw [Matrix.mul_apply]
    rfl
  have small : ∀ l m, R l m ≠ 0 → |(R l m : ℝ)| = 1 := fun l m h0 => abs_unit h0 (cubic_small R hR l m)
  rcases cubic_mono_cases R hR i j k ha.ij ha.ik ha.jk with
    h0 | ⟨h1, h2, h3⟩ | ⟨h1, h2, h3⟩ | ⟨h1, h2, h3, h4, h5, h6⟩ | ⟨h1, h2, h3, h4, h5, h6⟩ | ⟨h1, h2, h3, h4, h5, h6⟩
  · exact absurd h0 hn
  · have hv : (mm i j (q / (p * q - s * s)) (p / (p * q - s * s)) (-s / (p * q - s * s)) d⁻¹ *
        (toR R * mm i j p q s d)) k j = R k i * (s / d) := by
      rw [ent, ha.sum, ha.sum, ha.sum, ha.sum, f7, f8, f9, e2, h2, h3]
      simp only [mul_zero, zero_mul, add_zero, zero_add, Int.cast_zero]
      ring
    have hab : |(R k i : ℝ) * (s / d)| = |s| / d := by
      rw [abs_mul, small _ _ h1, one_mul, abs_div, abs_of_pos hd]
    refine ⟨k, j, far_abs ?_ ?_⟩ <;> rw [hv, hab] <;> assumption
  · have hv : (mm i j (q / (p * q - s * s)) (p / (p * q - s * s)) (-s / (p * q - s * s)) d⁻¹ *
        (toR R * mm i j p q s d)) k i = R k j * (s / d) := by
      rw [ent, ha.sum, ha.sum, ha.sum, ha.sum, f7, f8, f9, e4, h2, h3]
      simp only [mul_zero, zero_mul, add_zero, zero_add, Int.cast_zero]
      ring
    have hab : |(R k j : ℝ) * (s / d)| = |s| / d := by
      rw [abs_mul, small _ _ h1, one_mul, abs_div, abs_of_pos hd]
    refine ⟨k, i, far_abs ?_ ?_⟩ <;> rw [hv, hab] <;> assumption
  · have hv : (mm i j (q / (p * q - s * s)) (p / (p * q - s * s)) (-s / (p * q - s * s)) d⁻¹ *
        (toR R * mm i j p q s d)) i j = R i i * (2 * q * s / (p * q - s * s)) := by
      rw [ent, ha.sum, ha.sum, ha.sum, ha.sum, f1, f2, f3, e2, e5, h1, h2, h5]
      simp only [mul_zero, zero_mul, add_zero, zero_add, Int.cast_zero, Int.cast_neg, h3, h4]
      ring
    have hab : |(R i i : ℝ) * (2 * q * s / (p * q - s * s))| = 2 * q * |s| / (p * q - s * s) := by
      rw [abs_mul, small _ _ h6, one_mul, abs_div, abs_mul, abs_of_pos hD, abs_of_pos (by linarith)]
    refine ⟨i, j, far_abs ?_ ?_⟩ <;> rw [hv, hab] <;> assumption
  · have hv : (mm i j (q / (p * q - s * s)) (p / (p * q - s * s)) (-s / (p * q - s * s)) d⁻¹ *
        (toR R * mm i j p q s d)) i j = R i j * ((q * q - s * s) / (p * q - s * s)) := by
      rw [ent, ha.sum, ha.sum, ha.sum, ha.sum, f1, f2, f3, e2, e5, h1, h2, h5]
      simp only [mul_zero, zero_mul, add_zero, zero_add, Int.cast_zero, h3, h4]
      ring
    have hab : |(R i j : ℝ) * ((q * q - s * s) / (p * q - s * s))| = (q * q - s * s) / (p * q - s * s) := by
      rw [abs_mul, small _ _ h6, one_mul, abs_div, abs_of_pos hD, abs_of_pos hqs]
    refine ⟨i, j, fun z => ?_⟩
    rw [hv]
    exact hratio hab z
  · have hv : (mm i j (q / (p * q - s * s)) (p / (p * q - s * s)) (-s / (p * q - s * s)) d⁻¹ *
        (toR R * mm i j p q s d)) i i = R i j * ((p + q) * s / (p * q - s * s)) := by
      rw [ent, ha.sum, ha.sum, ha.sum, ha.sum, f1, f2, f3, e1, e4, h1, h2, h5]
      simp only [mul_zero, zero_mul, add_zero, zero_add, Int.cast_zero, Int.cast_neg, h3, h4]
      ring
    have hab : |(R i j : ℝ) * ((p + q) * s / (p * q - s * s))| = (p + q) * |s| / (p * q - s * s) := by
      rw [abs_mul, small _ _ h6, one_mul, abs_div, abs_mul, abs_of_pos hD, abs_of_pos (by linarith)]
    refine ⟨i, i, far_abs ?_ ?_⟩ <;> rw [hv, hab] <;> assumption

open Classical in
theorem mm_laue (h : Mono p q s d) (hij : i ≠ j) (ht : t = .code ∨ t = .exact) :
    ∃ lg, Lat.laueGroup t ⟨3, mm i j p q s d⟩ = .ok lg ∧ lg.length = 2 ∧ ∀ Q ∈ lg, Q ∈ cubicR := by
  have hE : (mm i j p q s d).det ≠ 0 := (spd_det_pos (h.spd hij)).ne'
  have hG : Reliable t (mm i j p q s d) ((cubicLaue.map NMat.int).map NMat.val) := by
    rcases ht with rfl | rfl
    swap
    · exact .inl rfl
    refine .inr ⟨rfl, fun Q hQ => ?_⟩
    rw [map_int_val] at hQ
    obtain ⟨R, hR, rfl⟩ := List.mem_map.mp hQ
    by_cases hk : Keeps R i j
    · exact .inl (mm_sym h hij (cubic_ortho R hR) hk)
    · exact .inr (mm_far h hij hR hk)
  have hlen : (((cubicLaue.map NMat.int).map NMat.val).filter
      (fun Q => decide (InPointGroup (mm i j p q s d) Q))).length = 2 := by
    rw [map_int_val, List.filter_map, List.length_map]
    have : cubicLaue.filter ((fun Q => decide (InPointGroup (mm i j p q s d) Q)) ∘ toR) =
        cubicLaue.filter (fun R => decide (Keeps R i j)) := by
      refine List.filter_congr fun R hR => ?_
      simp only [Function.comp, decide_eq_decide]
      constructor
      · intro hp
        by_contra hc
        exact not_sym_of_far hE (mm_far h hij hR hc) hp
      · exact mm_sym h hij (cubic_ortho R hR)
    rw [this]
    convert cubic_two i j hij
  refine ⟨_, ?_, hlen, ?_⟩
  · rw [laueGroup_three]
    simp only [Lat.select, filter_ok t hE, filter_map_val (passes_reliable hE hG)]
    rw [if_neg (by rw [hlen]; norm_num)]
  · intro Q hQ
    have := (List.mem_filter.1 hQ).1
    rwa [map_int_val] at this

theorem mm_reversible (h : Mono p q s d) (hij : i ≠ j) (ht : t = .code ∨ t = .exact) :
    Mart.isReversible t ⟨some (mm i j p q s d), cubicR⟩ = .ok true := by
  obtain ⟨lg, h1, h2, h3⟩ := mm_laue h hij ht
  have hl : cubicR.length = 24 := by simp [cubicR, cubicLaue]
  simp only [Mart.isReversible, lat_new_sq false (M := mm i j p q s d) (spd_det_pos (h.spd hij)).ne', h1]
  have : hasSubgroup t cubicR lg = true := by
    rw [C20_hassubgroup _ _ _ (by intro h; rw [h] at hl; simp at hl)]
    refine ⟨by rw [h2, hl]; norm_num, fun A hA => ⟨A, h3 A hA, allclose_self (tolOK_of ht) A⟩⟩
  rw [this, hl, h2]
  rfl

/-- two different ones of the twelve stretches differ clearly in an entry -/
theorem mm_gap (h : Mono p q s d) {i' j' : Fin 3} (hij : i ≠ j) (hij' : i' ≠ j') {x y : ℝ} (hx : |x| = |s|) (hy : |y| = |s|)
    (hne : ¬ (i = i' ∧ j = j' ∧ x = y)) :
    ∃ l m, 1 / 100 ≤ |mm i j p q x d l m - mm i' j' p q y d l m| ∧ |mm i' j' p q y d l m| ≤ 5 / 4 := by
  obtain ⟨k, ha⟩ := axes_exist hij
  obtain ⟨k', ha'⟩ := axes_exist hij'
  obtain ⟨e1, e2, e3, e4, e5, e6, e7, e8, e9⟩ := mm_at ha p q x d
  obtain ⟨f1, f2, f3, f4, f5, f6, f7, f8, f9⟩ := mm_at ha' p q y d
  have hs1 := h.s1
  have hs2 := h.s2
  by_cases hk : k = k'
  · subst hk
    by_cases hi : i = i'
    · subst hi
      obtain rfl : j = j' := third_unique i k j' j ha.ik ha'.ij ha'.jk.symm ha.ij.symm ha.jk
      refine ⟨i, j, ?_, ?_⟩
      · rw [e2, f2]
        have hxy : y = -x := by
          rcases abs_eq_abs.1 (hx.trans hy.symm) with h | h
          · exact absurd ⟨rfl, rfl, h⟩ hne
          · rw [h, neg_neg]
        rw [hxy, sub_neg_eq_add, ← two_mul, abs_mul, abs_two, hx]
        linarith
      · rw [f2, hy]; linarith
    · obtain rfl : i = j' := third_unique i' k j' i ha'.ik ha'.ij ha'.jk.symm hi ha.ik
      refine ⟨i, i, ?_, ?_⟩
      · rw [e1, f5]; exact h.pq
      · rw [f5, abs_of_pos (by linarith [h.q1])]; exact h.q2
  · refine ⟨i, j, ?_, ?_⟩
    · have : mm i' j' p q y d i j = 0 := by
        rcases ha.all k' with rfl | rfl | rfl
        · simp [mm, ha'.ik.symm, ha'.jk.symm, ha.ij.symm]
        · rcases ha'.all i with rfl | rfl | rfl <;> simp [*]
          exact absurd rfl ha.ij
        · exact absurd rfl hk
      rw [e2, this, sub_zero, hx]; exact hs1
    · have : mm i' j' p q y d i j = 0 := by
        rcases ha.all k' with rfl | rfl | rfl
        · simp [mm, ha'.ik.symm, ha'.jk.symm, ha.ij.symm]
        · rcases ha'.all i with rfl | rfl | rfl <;> simp [*]
          exact absurd rfl ha.ij
        · exact absurd rfl hk
      rw [this, abs_zero]; norm_num

theorem mm_inj (h : Mono p q s d) {i' j' : Fin 3} (hij : i ≠ j) (hij' : i' ≠ j') {x y : ℝ} (hx : |x| = |s|) (hy : |y| = |s|)
    (he : mm i j p q x d = mm i' j' p q y d) : i = i' ∧ j = j' ∧ x = y := by
  by_contra hne
  obtain ⟨l, m, h1, -⟩ := mm_gap h hij hij' hx hy hne
  rw [he, sub_self, abs_zero] at h1
  norm_num at h1

theorem mm_sep (h : Mono p q s d) (ht : t = .code ∨ t = .exact) {i' j' : Fin 3} (hij : i ≠ j) (hij' : i' ≠ j') {x y : ℝ}
    (hx : |x| = |s|) (hy : |y| = |s|) :
    allclose t (mm i j p q x d) (mm i' j' p q y d) ↔ mm i j p q x d = mm i' j' p q y d := by
  rcases ht with rfl | rfl
  swap
  · exact allclose_exact _ _
  refine ⟨fun hc => ?_, fun he => he ▸ allclose_self tolOK_code _⟩
  by_contra hne
  obtain ⟨l, m, h1, h2⟩ := mm_gap h hij hij' hx hy (by rintro ⟨rfl, rfl, rfl⟩; exact hne rfl)
  have c1 := hc l m
  simp only [Tol.code] at c1
  norm_num at c1
  linarith

theorem mm_orbit {R : Matrix (Fin 3) (Fin 3) ℤ} (hR : R ∈ cubicLaue) (hij : i ≠ j) :
    ∃ i' j' x, i' ≠ j' ∧ (x = s ∨ x = -s) ∧ toR R * mm i j p q s d * (toR R)ᵀ = mm i' j' p q x d := by
  obtain ⟨i', j', h', hi, hj, ho | ho⟩ := cubic_mono R hR i j hij
  · exact ⟨i', j', s, h', .inl rfl, by rw [mm_turn (cubic_ortho R hR) hij h' hi hj ho]; simp⟩
  · exact ⟨i', j', -s, h', .inr rfl, by rw [mm_turn (cubic_ortho R hR) hij h' hi hj ho]; simp⟩

theorem mm_variants (ht : t = .code ∨ t = .exact) (h : Mono p q s d) (hij : i ≠ j) :
    ∃ vs, Mart.getVariants t ⟨some (mm i j p q s d), cubicR⟩ = .ok vs ∧ vs.length = 12 ∧ vs.Nodup ∧
      vs.head? = some (mm i j p q s d) ∧
      ∀ V, V ∈ vs ↔ ∃ i' j' x, i' ≠ j' ∧ (x = s ∨ x = -s) ∧ V = mm i' j' p q x d := by
  have hab : ∀ {x}, x = s ∨ x = -s → |x| = |s| := by rintro x (rfl | rfl) <;> simp
  have hs := variants_spec (t := t) (U := mm i j p q s d) cubicR_group cubicR_nodup cubicR_ortho (by
    intro P hP Q hQ
    obtain ⟨R, hR, rfl⟩ := List.mem_map.1 hP
    obtain ⟨S, hS, rfl⟩ := List.mem_map.1 hQ
    obtain ⟨i1, j1, x1, n1, e1, h1⟩ := mm_orbit (p := p) (q := q) (s := s) (d := d) hR hij
    obtain ⟨i2, j2, x2, n2, e2, h2⟩ := mm_orbit (p := p) (q := q) (s := s) (d := d) hS hij
    rw [h1, h2]
    exact mm_sep h ht n1 n2 (hab e1) (hab e2))
  have horb : ∀ V, V ∈ (variantLoop t (mm i j p q s d) cubicR).1 ↔
      ∃ i' j' x, i' ≠ j' ∧ (x = s ∨ x = -s) ∧ V = mm i' j' p q x d := by
    intro V
    rw [hs.orbit]
    constructor
    · rintro ⟨Q, hQ, rfl⟩
      obtain ⟨R, hR, rfl⟩ := List.mem_map.1 hQ
      exact mm_orbit hR hij
    · rintro ⟨i', j', x, n', rfl | rfl, rfl⟩
      · obtain ⟨⟨R, hR, hi, hj, ho⟩, -⟩ := cubic_mono_transitive i j hij i' j' n'
        exact ⟨toR R, List.mem_map_of_mem hR, by rw [mm_turn (cubic_ortho R hR) hij n' hi hj ho]; simp⟩
      · obtain ⟨-, R, hR, hi, hj, ho⟩ := cubic_mono_transitive i j hij i' j' n'
        exact ⟨toR R, List.mem_map_of_mem hR, by rw [mm_turn (cubic_ortho R hR) hij n' hi hj ho]; simp⟩
  have hb0 : s ≠ 0 := by
    rintro rfl
    have := h.s1
    norm_num at this
  refine ⟨_, ?_, ?_, hs.nodup, hs.first, horb⟩
  · simp [Mart.getVariants, Mart.calcVariants, mm_reversible h hij ht]
  · let axs : List (Fin 3 × Fin 3) := [(0, 1), (0, 2), (1, 0), (1, 2), (2, 0), (2, 1)]
    have hax : ∀ a ∈ axs, a.1 ≠ a.2 := by decide
    have hax' : ∀ i j : Fin 3, i ≠ j → (i, j) ∈ axs := by decide
    have hp : List.Perm (variantLoop t (mm i j p q s d) cubicR).1
        ((axs.product [true, false]).map fun a => mm a.1.1 a.1.2 p q (if a.2 then s else -s) d) := by
      have hite : ∀ v : Bool, |if v = true then s else -s| = |s| := by intro v; cases v <;> simp
      refine (List.perm_ext_iff_of_nodup hs.nodup ?_).2 fun V => ?_
      · refine List.Nodup.map_on ?_ (by decide)
        rintro ⟨⟨i1, j1⟩, v1⟩ m1 ⟨⟨i2, j2⟩, v2⟩ m2 he
        obtain ⟨rfl, rfl, hv⟩ := mm_inj h (hax _ (List.mem_product.1 m1).1) (hax _ (List.mem_product.1 m2).1) (hite v1)
          (hite v2) he
        have : v1 = v2 := by
          cases v1 <;> cases v2 <;> simp at hv ⊢
          · exact hb0 (by linarith)
          · exact hb0 (by linarith)
        rw [this]
      · rw [horb, List.mem_map]
        constructor
        · rintro ⟨i', j', x, n', rfl | rfl, rfl⟩
          · exact ⟨((i', j'), true), List.mem_product.2 ⟨hax' _ _ n', by simp⟩, by simp⟩
          · exact ⟨((i', j'), false), List.mem_product.2 ⟨hax' _ _ n', by simp⟩, by simp⟩
        · rintro ⟨⟨⟨i', j'⟩, v⟩, m, rfl⟩
          have n' := hax _ (List.mem_product.1 m).1
          cases v
          · exact ⟨i', j', -s, n', .inr rfl, by simp⟩
          · exact ⟨i', j', s, n', .inl rfl, by simp⟩
    rw [hp.length_eq, List.length_map]
    rfl

/-- **C105**, variants: `getvariants()` of a martensite with a monoclinic stretch has twelve elements, one for each
ordered pair of cube axes and each of the two signs, the given one first. -/
theorem C105_variants (ht : t = .code ∨ t = .exact) (h : ClearlyMonoclinic p q r d) (hij : i ≠ j) {σ : ℝ}
    (hσ : σ = 1 ∨ σ = -1) :
    ∃ vs, Mart.getVariants t ⟨some (monoStretch p q r d i j σ), cubicR⟩ = .ok vs ∧ vs.length = 12 ∧ vs.Nodup ∧
      vs.head? = some (monoStretch p q r d i j σ) ∧
      ∀ V, V ∈ vs ↔ ∃ i' j' σ', i' ≠ j' ∧ (σ' = 1 ∨ σ' = -1) ∧ V = monoStretch p q r d i' j' σ' := by
  obtain ⟨vs, h1, h2, h3, h4, h5⟩ := mm_variants ht (clearly_mono h hσ) hij
  refine ⟨vs, h1, h2, h3, h4, fun V => ?_⟩
  rw [h5]
  constructor
  · rintro ⟨i', j', x, hn, hx, rfl⟩
    rcases hσ with rfl | rfl <;> rcases hx with rfl | rfl
    · exact ⟨i', j', 1, hn, .inl rfl, rfl⟩
    · exact ⟨i', j', -1, hn, .inr rfl, by rw [mono_mm]; congr 1; ring⟩
    · exact ⟨i', j', -1, hn, .inr rfl, rfl⟩
    · exact ⟨i', j', 1, hn, .inl rfl, by rw [mono_mm]; congr 1; ring⟩
  · rintro ⟨i', j', σ', hn, hσ', rfl⟩
    refine ⟨i', j', σ' * r, hn, ?_, rfl⟩
    rcases hσ with rfl | rfl <;> rcases hσ' with rfl | rfl
    · exact .inl rfl
    · exact .inr (by ring)
    · exact .inr (by ring)
    · exact .inl rfl

/-- **C105**, through the API: `Martensite().setU(p, r, q, d)` makes the monoclinic stretch. -/
theorem C105_setU (ht : t = .code ∨ t = .exact) (h : ClearlyMonoclinic p q r d) :
    ∃ m vs, Mart.setU ⟨none, cubicR⟩ [.num p, .num r, .num q, .num d] = .ok m ∧
      m.getU = .ok (monoStretch p q r d 0 1 1) ∧ m.getVariants t = .ok vs ∧ vs.length = 12 ∧ vs.Nodup ∧
      ∀ V, V ∈ vs ↔ ∃ i j σ, i ≠ j ∧ (σ = 1 ∨ σ = -1) ∧ V = monoStretch p q r d i j σ := by
  obtain ⟨vs, h1, h2, h3, -, h4⟩ := C105_variants ht h (i := 0) (j := 1) (by decide) (σ := 1) (.inl rfl)
  have hU : !![p, r, 0; r, q, 0; 0, 0, d] = monoStretch p q r d 0 1 1 := by
    ext i j
    fin_cases i <;> fin_cases j <;> simp [monoStretch]
  have hs := (clearly_mono h (σ := 1) (.inl rfl)).spd (i := 0) (j := 1) (by decide)
  rw [← mono_mm] at hs
  refine ⟨⟨some (monoStretch p q r d 0 1 1), cubicR⟩, vs, ?_, rfl, h1, h2, h3, h4⟩
  simp only [Mart.setU, uOf, hU]
  rw [if_neg (not_not.2 hs.1.symm), if_neg (not_not.2 (spd_det_pos hs))]

/-- The stretch of Cu-Zn-Al is clearly monoclinic, so the hypotheses hold for a real alloy. -/
example : ClearlyMonoclinic (1.087 : ℝ) 1.010 0.025 0.9093 := by
  norm_num [ClearlyMonoclinic, abs_of_pos]

end Verif.Props
