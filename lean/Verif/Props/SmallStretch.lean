import Verif.Spec.SmallStretch
import Verif.Props.Perturbed
import Verif.Props.Orthorhombic

/-!
# Small stretches of a cubic lattice

C107: the Laue group, the variants and their number.
-/

namespace Verif.Props

open Matrix Verif.Model Verif.Spec Verif.Lemmas

local notation "Mat3" => Matrix (Fin 3) (Fin 3) ℝ

variable {U : Mat3} {t : Tol}

theorem cube_iff {R : Matrix (Fin 3) (Fin 3) ℤ} : IsCubeRotation R ↔ R ∈ cubicLaue := (C19_cubic_complete R).symm

theorem realOf_eq (R : Matrix (Fin 3) (Fin 3) ℤ) : realOf R = toR R := rfl

theorem cubeLaue_transpose {R : Matrix (Fin 3) (Fin 3) ℤ} (hR : R ∈ cubicLaue) : Rᵀ ∈ cubicLaue := by
  rw [← cube_iff] at hR ⊢
  exact ⟨by rw [transpose_transpose]; exact mul_eq_one_comm.1 hR.1, by rw [det_transpose]; exact hR.2⟩

theorem cubeLaue_mul {R S : Matrix (Fin 3) (Fin 3) ℤ} (hR : R ∈ cubicLaue) (hS : S ∈ cubicLaue) : R * S ∈ cubicLaue := by
  rw [← cube_iff] at hR hS ⊢
  refine ⟨?_, by rw [det_mul, hR.2, hS.2, mul_one]⟩
  rw [transpose_mul, Matrix.mul_assoc, ← Matrix.mul_assoc S, hS.1, Matrix.one_mul, hR.1]

theorem cubic_row_one : ∀ R ∈ cubicLaue, ∀ i : Fin 3, |R i 0| + |R i 1| + |R i 2| = 1 := by
  unfold cubicLaue; decide +kernel

theorem toR_ortho {R : Matrix (Fin 3) (Fin 3) ℤ} (hR : R ∈ cubicLaue) : toR R * (toR R)ᵀ = 1 := by
  rw [← toR_transpose, ← toR_mul, cubic_ortho R hR, toR_one]

theorem toR_ortho' {R : Matrix (Fin 3) (Fin 3) ℤ} (hR : R ∈ cubicLaue) : (toR R)ᵀ * toR R = 1 :=
  mul_eq_one_comm.1 (toR_ortho hR)

theorem small_quad (h : SmallStretch U) (x : Fin 3 → ℝ) : 87 / 100 * (x ⬝ᵥ x) ≤ x ⬝ᵥ U *ᵥ x := by
  set F := U - 1 with hF
  have hU : U = 1 + F := by rw [hF]; abel
  have hsym : ∀ i j, F i j = F j i := fun i j => by
    have := congrFun (congrFun h.symmetric j) i
    rw [transpose_apply] at this
    simp only [hF, Matrix.sub_apply, this, Matrix.one_apply, eq_comm]
  have e1 : x ⬝ᵥ U *ᵥ x = x ⬝ᵥ x + ∑ i, ∑ j, F i j * (x i * x j) := by
    rw [hU, add_mulVec, one_mulVec, dotProduct_add]
    congr 1
    simp only [dotProduct, mulVec, Finset.mul_sum]
    exact Finset.sum_congr rfl fun i _ => Finset.sum_congr rfl fun j _ => by ring
  have e2 : ∀ i j, -(|F i j| * (x i * x i) / 2 + |F i j| * (x j * x j) / 2) ≤ F i j * (x i * x j) := fun i j => by
    have h1 : |F i j * (x i * x j)| ≤ |F i j| * (x i * x i) / 2 + |F i j| * (x j * x j) / 2 := by
      have h2 : |x i * x j| ≤ (x i * x i + x j * x j) / 2 := by
        rw [abs_mul]
        nlinarith [mul_self_nonneg (|x i| - |x j|), abs_mul_abs_self (x i), abs_mul_abs_self (x j)]
      rw [abs_mul]
      linarith [mul_le_mul_of_nonneg_left h2 (abs_nonneg (F i j))]
    linarith [neg_abs_le (F i j * (x i * x j))]
  have e3 : -(13 / 100 * (x ⬝ᵥ x)) ≤ ∑ i, ∑ j, F i j * (x i * x j) := by
    have h1 := Finset.sum_le_sum fun i (_ : i ∈ Finset.univ) => Finset.sum_le_sum fun j (_ : j ∈ Finset.univ) => e2 i j
    refine le_trans ?_ h1
    have h2 : ∑ i, ∑ j, -(|F i j| * (x i * x i) / 2 + |F i j| * (x j * x j) / 2) =
        -∑ i, (∑ j, |F i j|) * (x i * x i) := by
      simp only [Finset.sum_neg_distrib, Finset.sum_add_distrib]
      rw [Finset.sum_comm (f := fun i j => |F i j| * (x j * x j) / 2), ← Finset.sum_add_distrib]
      congr 1
      refine Finset.sum_congr rfl fun i _ => ?_
      rw [← Finset.sum_add_distrib, Finset.sum_mul]
      refine Finset.sum_congr rfl fun j _ => ?_
      rw [hsym j i]
      ring
    rw [h2, neg_le_neg_iff, dotProduct, Finset.mul_sum]
    exact Finset.sum_le_sum fun i _ => mul_le_mul_of_nonneg_right (h.near i) (mul_self_nonneg _)
  rw [e1]
  linarith

theorem small_spd (h : SmallStretch U) : IsSPD U := by
  refine ⟨h.symmetric, fun x hx => lt_of_lt_of_le ?_ (small_quad h x)⟩
  have hpos : 0 < x ⬝ᵥ x := by
    rw [dotProduct]
    obtain ⟨i, hi⟩ := Function.ne_iff.1 hx
    exact Finset.sum_pos' (fun i _ => mul_self_nonneg _) ⟨i, Finset.mem_univ i, mul_self_pos.2 hi⟩
  linarith

section norm

attribute [local instance] Matrix.linftyOpNormedRing Matrix.linftyOpNormedAddCommGroup

theorem small_norm (h : SmallStretch U) : ‖U - 1‖ ≤ 13 / 100 := (rowSums_iff (by norm_num)).1 h.near

theorem norm_toR {R : Matrix (Fin 3) (Fin 3) ℤ} (hR : R ∈ cubicLaue) : ‖toR R‖ ≤ 1 := by
  refine (rowSums_iff zero_le_one).1 fun i => ?_
  have := cubic_row_one R hR i
  rw [Fin.sum_univ_three]
  simp only [toR, Matrix.map_apply]
  exact_mod_cast this.le

theorem norm_toR_t {R : Matrix (Fin 3) (Fin 3) ℤ} (hR : R ∈ cubicLaue) : ‖(toR R)ᵀ‖ ≤ 1 := by
  rw [← toR_transpose]; exact norm_toR (cubeLaue_transpose hR)

theorem norm_conj {R : Matrix (Fin 3) (Fin 3) ℤ} (hR : R ∈ cubicLaue) (A : Mat3) : ‖toR R * A * (toR R)ᵀ‖ ≤ ‖A‖ := by
  calc ‖toR R * A * (toR R)ᵀ‖ ≤ ‖toR R * A‖ * ‖(toR R)ᵀ‖ := norm_mul_le _ _
    _ ≤ ‖toR R * A‖ * 1 := mul_le_mul_of_nonneg_left (norm_toR_t hR) (norm_nonneg _)
    _ ≤ ‖toR R‖ * ‖A‖ := by rw [mul_one]; exact norm_mul_le _ _
    _ ≤ 1 * ‖A‖ := mul_le_mul_of_nonneg_right (norm_toR hR) (norm_nonneg _)
    _ = ‖A‖ := one_mul _

theorem entry_norm (A : Mat3) (i j : Fin 3) : |A i j| ≤ ‖A‖ := entry_le ((rowSums_iff (norm_nonneg _)).2 le_rfl) i j

theorem norm_entry {A : Mat3} {c : ℝ} (hc : 0 ≤ c) (h : ∀ i j, |A i j| ≤ c) : ‖A‖ ≤ 3 * c := by
  refine (rowSums_iff (by positivity)).1 fun i => ?_
  rw [Fin.sum_univ_three]
  linarith [h i 0, h i 1, h i 2]

theorem far_shift {x : ℝ} {r : ℤ} (hr : r = 0 ∨ r = 1 ∨ r = -1) (h1 : 2 / 10 ^ 5 ≤ |x|) (h2 : |x| ≤ 3 / 10) (z : ℤ) :
    1 / 10 ^ 8 + 1 / 10 ^ 5 * |(z : ℝ)| < |(r + x) - z| := by
  have hr' : |(r : ℝ)| ≤ 1 := by rcases hr with rfl | rfl | rfl <;> norm_num
  have hz : |(z : ℝ)| ≤ |((z - r : ℤ) : ℝ)| + 1 := by
    have : (z : ℝ) = ((z - r : ℤ) : ℝ) + r := by push_cast; ring
    have h3 := abs_add_le ((z - r : ℤ) : ℝ) (r : ℝ)
    rw [← this] at h3
    linarith
  have hx : (r : ℝ) + x - z = x - ((z - r : ℤ) : ℝ) := by push_cast; ring
  rw [hx]
  by_cases h0 : z - r = 0
  · rw [h0] at hz ⊢
    simp only [Int.cast_zero, abs_zero, zero_add, sub_zero] at hz ⊢
    linarith
  · have h3 : (1 : ℝ) ≤ |((z - r : ℤ) : ℝ)| := by exact_mod_cast Int.one_le_abs h0
    have h4 := abs_sub_abs_le_abs_sub ((z - r : ℤ) : ℝ) x
    rw [abs_sub_comm] at h4
    linarith

/-- How the coefficients of the images of the base vectors of a stretched cube are related to those for the cube. -/
theorem small_conj (h : SmallStretch U) {R : Matrix (Fin 3) (Fin 3) ℤ} (hR : R ∈ cubicLaue) :
    ∃ X : Mat3, U⁻¹ * (toR R * U) = toR R + X ∧ ‖X‖ ≤ 3 / 10 ∧ ‖toR R * U * (toR R)ᵀ - U‖ ≤ 113 / 100 * ‖X‖ ∧
      (X = 0 → toR R * U * (toR R)ᵀ = U) := by
  have hE : U.det ≠ 0 := (spd_det_pos (small_spd h)).ne'
  set F := U - 1 with hF
  have hU : U = 1 + F := by rw [hF]; abel
  refine ⟨U⁻¹ * (toR R * U) - toR R, by abel, ?_⟩
  set X := U⁻¹ * (toR R * U) - toR R with hX
  have e1 : U * X = toR R * U - U * toR R := by
    rw [hX, Matrix.mul_sub, ← Matrix.mul_assoc, mul_nonsing_inv _ hE.isUnit, Matrix.one_mul]
  have e2 : X = (toR R * F - F * toR R) - F * X := by
    have h1 : X + F * X = toR R * F - F * toR R := by
      have : U * X = X + F * X := by rw [hU, Matrix.add_mul, Matrix.one_mul]
      rw [← this, e1, hU, Matrix.mul_add, Matrix.add_mul, Matrix.mul_one, Matrix.one_mul]
      abel
    exact eq_sub_of_add_eq h1
  have nF : ‖F‖ ≤ 13 / 100 := small_norm h
  have nR := norm_toR hR
  have n1 : ‖X‖ ≤ (‖toR R‖ * ‖F‖ + ‖F‖ * ‖toR R‖) + ‖F‖ * ‖X‖ := by
    calc ‖X‖ = ‖(toR R * F - F * toR R) - F * X‖ := by rw [← e2]
      _ ≤ ‖toR R * F - F * toR R‖ + ‖F * X‖ := norm_sub_le _ _
      _ ≤ (‖toR R * F‖ + ‖F * toR R‖) + ‖F * X‖ := by gcongr; exact norm_sub_le _ _
      _ ≤ _ := by gcongr <;> exact norm_mul_le _ _
  have p1 := norm_nonneg X
  have p2 := norm_nonneg F
  have p3 := norm_nonneg (toR R)
  have m1 : ‖toR R‖ * ‖F‖ ≤ 1 * (13 / 100) := mul_le_mul nR nF p2 zero_le_one
  have m2 : ‖F‖ * ‖X‖ ≤ 13 / 100 * ‖X‖ := mul_le_mul_of_nonneg_right nF p1
  have e3 : toR R * U * (toR R)ᵀ - U = U * X * (toR R)ᵀ := by
    rw [e1, Matrix.sub_mul, Matrix.mul_assoc U, toR_ortho hR, Matrix.mul_one]
  refine ⟨by linarith [mul_comm ‖F‖ ‖toR R‖], ?_, fun h0 => ?_⟩
  · rw [e3]
    have nU : ‖U‖ ≤ 113 / 100 := by
      have h1 : ‖(1 : Mat3)‖ ≤ 1 := by
        refine (rowSums_iff zero_le_one).1 fun i => ?_
        simp [Matrix.one_apply, apply_ite abs]
      calc ‖U‖ = ‖1 + F‖ := by rw [← hU]
        _ ≤ ‖(1 : Mat3)‖ + ‖F‖ := norm_add_le _ _
        _ ≤ _ := by linarith
    calc ‖U * X * (toR R)ᵀ‖ ≤ ‖U * X‖ * ‖(toR R)ᵀ‖ := norm_mul_le _ _
      _ ≤ ‖U * X‖ * 1 := mul_le_mul_of_nonneg_left (norm_toR_t hR) (norm_nonneg _)
      _ ≤ ‖U‖ * ‖X‖ := by rw [mul_one]; exact norm_mul_le _ _
      _ ≤ _ := mul_le_mul_of_nonneg_right nU p1
  · rw [h0, Matrix.mul_zero, Matrix.zero_mul] at e3
    exact sub_eq_zero.1 e3

theorem small_sym (h : SmallStretch U) {R : Matrix (Fin 3) (Fin 3) ℤ} (hR : R ∈ cubicLaue) :
    InPointGroup U (toR R) ↔ toR R * U * (toR R)ᵀ = U := by
  have hE : U.det ≠ 0 := (spd_det_pos (small_spd h)).ne'
  obtain ⟨X, h1, h2, -, h4⟩ := small_conj h hR
  rw [inPointGroup_iff hE, h1]
  constructor
  · rintro ⟨-, hi⟩
    refine h4 (Matrix.ext fun i j => ?_)
    obtain ⟨z, hz⟩ := hi i j
    have hx : X i j = ((z - R i j : ℤ) : ℝ) := by
      rw [Matrix.add_apply] at hz
      push_cast
      rw [← hz]
      simp [toR]
    have hb := (entry_norm X i j).trans h2
    rw [hx] at hb ⊢
    have : z - R i j = 0 := by
      by_contra h0
      have h3 : (1 : ℝ) ≤ |((z - R i j : ℤ) : ℝ)| := by exact_mod_cast Int.one_le_abs h0
      linarith
    rw [this, Int.cast_zero, Matrix.zero_apply]
  · intro he
    refine ⟨toR_ortho hR, ?_⟩
    have e3 : toR R * U = U * toR R := by
      have := congrArg (· * toR R) he
      rwa [Matrix.mul_assoc, toR_ortho' hR, Matrix.mul_one] at this
    rw [← h1, e3, ← Matrix.mul_assoc, nonsing_inv_mul _ hE.isUnit, Matrix.one_mul]
    exact fun i j => ⟨R i j, rfl⟩

theorem small_far (h : SmallStretch U) {R : Matrix (Fin 3) (Fin 3) ℤ} (hR : R ∈ cubicLaue)
    (hc : ∃ i j, 1 / 10 ^ 4 ≤ |(toR R * U * (toR R)ᵀ) i j - U i j|) :
    ∃ i j, ∀ z : ℤ, 1 / 10 ^ 8 + 1 / 10 ^ 5 * |(z : ℝ)| < |(U⁻¹ * (toR R * U)) i j - z| := by
  obtain ⟨X, h1, h2, h3, -⟩ := small_conj h hR
  obtain ⟨i, j, hc⟩ := hc
  have hb := (entry_norm (toR R * U * (toR R)ᵀ - U) i j).trans h3
  rw [Matrix.sub_apply] at hb
  have hX : ∃ i j, 2 / 10 ^ 5 ≤ |X i j| := by
    by_contra hn
    push Not at hn
    have := norm_entry (by norm_num) fun i j => (hn i j).le
    norm_num at this hc
    linarith
  obtain ⟨a, b, hX⟩ := hX
  refine ⟨a, b, fun z => ?_⟩
  rw [h1, Matrix.add_apply]
  exact far_shift (cubic_small R hR a b) hX ((entry_norm X a b).trans h2) z

theorem hex_small_far (h : SmallStretch U) {Q : Mat3} (hQ : ‖Q‖ ≤ 1367 / 1000) (h0 : |Q 0 0| = 1 / 2) :
    ∃ i j, ∀ z : ℤ, 1 / 10 ^ 8 + 1 / 10 ^ 5 * |(z : ℝ)| < |(U⁻¹ * (Q * U)) i j - z| := by
  have hE : U.det ≠ 0 := (spd_det_pos (small_spd h)).ne'
  set F := U - 1 with hF
  have hU : U = 1 + F := by rw [hF]; abel
  set X := U⁻¹ * (Q * U) - Q with hX
  have e1 : U * X = Q * U - U * Q := by
    rw [hX, Matrix.mul_sub, ← Matrix.mul_assoc, mul_nonsing_inv _ hE.isUnit, Matrix.one_mul]
  have e2 : X = (Q * F - F * Q) - F * X := by
    have h1 : X + F * X = Q * F - F * Q := by
      have : U * X = X + F * X := by rw [hU, Matrix.add_mul, Matrix.one_mul]
      rw [← this, e1, hU, Matrix.mul_add, Matrix.add_mul, Matrix.mul_one, Matrix.one_mul]
      abel
    exact eq_sub_of_add_eq h1
  have nF : ‖F‖ ≤ 13 / 100 := small_norm h
  have n1 : ‖X‖ ≤ (‖Q‖ * ‖F‖ + ‖F‖ * ‖Q‖) + ‖F‖ * ‖X‖ := by
    calc ‖X‖ = ‖(Q * F - F * Q) - F * X‖ := by rw [← e2]
      _ ≤ ‖Q * F - F * Q‖ + ‖F * X‖ := norm_sub_le _ _
      _ ≤ (‖Q * F‖ + ‖F * Q‖) + ‖F * X‖ := by gcongr; exact norm_sub_le _ _
      _ ≤ _ := by gcongr <;> exact norm_mul_le _ _
  have p1 := norm_nonneg X
  have p2 := norm_nonneg F
  have m1 : ‖Q‖ * ‖F‖ ≤ 1367 / 1000 * (13 / 100) := mul_le_mul hQ nF p2 (by norm_num)
  have m2 : ‖F‖ * ‖X‖ ≤ 13 / 100 * ‖X‖ := mul_le_mul_of_nonneg_right nF p1
  have hX4 : |X 0 0| ≤ 41 / 100 := (entry_norm X 0 0).trans (by linarith [mul_comm ‖F‖ ‖Q‖])
  have hv : (U⁻¹ * (Q * U)) 0 0 = Q 0 0 + X 0 0 := by rw [hX, Matrix.sub_apply]; ring
  have b1 := abs_sub_abs_le_abs_sub (Q 0 0) (-X 0 0)
  have b2 := abs_add_le (Q 0 0) (X 0 0)
  rw [sub_neg_eq_add, abs_neg] at b1
  refine ⟨0, 0, far_abs ?_ ?_⟩ <;> rw [hv] <;> norm_num <;> linarith

theorem hex_norm {Q : Mat3} (hQ : Q ∈ (hexLaue.drop 4).map NMat.val) : ‖Q‖ ≤ 1367 / 1000 ∧ |Q 0 0| = 1 / 2 := by
  have hs : hexS ≤ 867 / 1000 := by nlinarith [hexS_sq, hexS_pos]
  have hp := hexS_pos
  simp only [hexLaue, List.drop_succ_cons, List.drop_zero, List.map_cons, List.map_nil, List.mem_cons, List.not_mem_nil,
    or_false, NMat.val] at hQ
  constructor
  · refine (rowSums_iff (by norm_num)).1 fun i => ?_
    rw [Fin.sum_univ_three]
    rcases hQ with rfl | rfl | rfl | rfl | rfl | rfl | rfl | rfl <;> fin_cases i <;>
      simp [hexC_eq, abs_of_pos hp] <;> norm_num <;> linarith
  · rcases hQ with rfl | rfl | rfl | rfl | rfl | rfl | rfl | rfl <;> simp [hexC_eq]

end norm

/-! ### the Laue group and the variants -/

/-- the comparisons are exact, or those of the code and the symmetry of the stretch is clear -/
def ClearFor (t : Tol) (U : Mat3) : Prop := t = .exact ∨ t = .code ∧ ClearSymmetry U

theorem ClearFor.tol (h : ClearFor t U) : t = .code ∨ t = .exact := by
  rcases h with h | h
  · exact .inr h
  · exact .inl h.1

theorem small_reliable (h : SmallStretch U) (hc : ClearFor t U) :
    Reliable t U ((cubicLaue.map NMat.int).map NMat.val) ∧ Reliable t U (hexLaue.map NMat.val) := by
  rcases hc with rfl | ⟨rfl, hc⟩
  · exact ⟨.inl rfl, .inl rfl⟩
  have key : ∀ R ∈ cubicLaue, InPointGroup U (toR R) ∨
      ∃ i j, ∀ z : ℤ, 1 / 10 ^ 8 + 1 / 10 ^ 5 * |(z : ℝ)| < |(U⁻¹ * (toR R * U)) i j - z| := fun R hR => by
    rcases hc R (cube_iff.2 hR) with h1 | h1
    · exact .inl ((small_sym h hR).2 h1)
    · exact .inr (small_far h hR h1)
  refine ⟨.inr ⟨rfl, fun Q hQ => ?_⟩, .inr ⟨rfl, fun Q hQ => ?_⟩⟩
  · rw [map_int_val] at hQ
    obtain ⟨R, hR, rfl⟩ := List.mem_map.mp hQ
    exact key R hR
  · rw [← List.take_append_drop 4 hexLaue, List.map_append, List.mem_append] at hQ
    rcases hQ with hQ | hQ
    · have : ∃ R ∈ cubicLaue, Q = toR R := by
        simp only [hexLaue, List.take_succ_cons, List.take_zero, List.map_cons, List.map_nil, List.mem_cons, List.not_mem_nil,
          or_false, NMat.val] at hQ
        rcases hQ with rfl | rfl | rfl | rfl
        · exact ⟨!![1, 0, 0; 0, 1, 0; 0, 0, 1], by unfold cubicLaue; decide +kernel, rfl⟩
        · exact ⟨!![1, 0, 0; 0, -1, 0; 0, 0, -1], by unfold cubicLaue; decide +kernel, rfl⟩
        · exact ⟨!![-1, 0, 0; 0, 1, 0; 0, 0, -1], by unfold cubicLaue; decide +kernel, rfl⟩
        · exact ⟨!![-1, 0, 0; 0, -1, 0; 0, 0, 1], by unfold cubicLaue; decide +kernel, rfl⟩
      obtain ⟨R, hR, rfl⟩ := this
      exact key R hR
    · exact .inr (hex_small_far h (hex_norm hQ).1 (hex_norm hQ).2)

open Classical in
theorem small_laue (h : SmallStretch U) (hc : ClearFor t U) :
    Lat.laueGroup t ⟨3, U⟩ = .ok (cubicR.filter fun Q => decide (Q * U * Qᵀ = U)) := by
  have hE : U.det ≠ 0 := (spd_det_pos (small_spd h)).ne'
  obtain ⟨hG, hH⟩ := small_reliable h hc
  have hcub : ((cubicLaue.map NMat.int).map NMat.val).filter (fun Q => decide (InPointGroup U Q)) =
      cubicR.filter fun Q => decide (Q * U * Qᵀ = U) := by
    rw [map_int_val]
    refine List.filter_congr fun Q hQ => ?_
    obtain ⟨R, hR, rfl⟩ := List.mem_map.1 hQ
    rw [decide_eq_decide]
    exact small_sym h hR
  have hhex : ((hexLaue.map NMat.val).filter (fun Q => decide (InPointGroup U Q))).length ≤ 4 := by
    have h0 : ((hexLaue.drop 4).map NMat.val).filter (fun Q => decide (InPointGroup U Q)) = [] :=
      List.filter_eq_nil_iff.2 fun Q hQ => by
        simpa using not_sym_of_far hE (hex_small_far h (hex_norm hQ).1 (hex_norm hQ).2)
    rw [← List.take_append_drop 4 hexLaue, List.map_append, List.filter_append, h0, List.append_nil]
    refine (List.length_filter_le _ _).trans ?_
    simp
  rw [laueGroup_three, select_sym hE hG hH, if_neg (by omega), hcub]

section norm

attribute [local instance] Matrix.linftyOpNormedRing Matrix.linftyOpNormedAddCommGroup

theorem small_sep (h : SmallStretch U) (hc : ClearFor t U) : ∀ P ∈ cubicR, ∀ Q ∈ cubicR,
    allclose t (P * U * Pᵀ) (Q * U * Qᵀ) ↔ P * U * Pᵀ = Q * U * Qᵀ := by
  intro P hP Q hQ
  obtain ⟨R, hR, rfl⟩ := List.mem_map.1 hP
  obtain ⟨S, hS, rfl⟩ := List.mem_map.1 hQ
  refine ⟨fun ha => ?_, fun he => he ▸ allclose_self (tolOK_of hc.tol) _⟩
  rcases hc with rfl | ⟨rfl, hc⟩
  · exact (allclose_exact _ _).1 ha
  have hT : Sᵀ * R ∈ cubicLaue := cubeLaue_mul (cubeLaue_transpose hS) hR
  have e1 : toR (Sᵀ * R) * U * (toR (Sᵀ * R))ᵀ = (toR S)ᵀ * (toR R * U * (toR R)ᵀ) * toR S := by
    rw [toR_mul, toR_transpose, Matrix.transpose_mul, transpose_transpose]
    simp only [Matrix.mul_assoc]
  have back : ∀ A B : Mat3, (toR S)ᵀ * A * toR S = B → A = toR S * B * (toR S)ᵀ := by
    rintro A B rfl
    simp only [← Matrix.mul_assoc, toR_ortho hS, Matrix.one_mul]
    rw [Matrix.mul_assoc, toR_ortho hS, Matrix.mul_one]
  rcases hc _ (cube_iff.2 hT) with h1 | ⟨i, j, h1⟩
  · rw [realOf_eq, e1] at h1
    exact back _ _ h1
  · exfalso
    rw [realOf_eq, e1] at h1
    have hn : ‖(toR S)ᵀ * (toR R * U * (toR R)ᵀ) * toR S - U‖ ≤ 6 / 10 ^ 5 := by
      have h2 : (toR S)ᵀ * (toR R * U * (toR R)ᵀ) * toR S - U =
          toR Sᵀ * (toR R * U * (toR R)ᵀ - toR S * U * (toR S)ᵀ) * (toR Sᵀ)ᵀ := by
        rw [toR_transpose, transpose_transpose, Matrix.mul_sub, Matrix.sub_mul]
        congr 1
        simp only [← Matrix.mul_assoc, toR_ortho' hS, Matrix.one_mul]
        rw [Matrix.mul_assoc, toR_ortho' hS, Matrix.mul_one]
      rw [h2]
      refine (norm_conj (cubeLaue_transpose hS) _).trans ?_
      have h3 := norm_entry (A := toR R * U * (toR R)ᵀ - toR S * U * (toR S)ᵀ) (c := 2 / 10 ^ 5) (by norm_num) (fun i j => by
        rw [Matrix.sub_apply]
        refine (ha i j).trans ?_
        have hb : |(toR S * U * (toR S)ᵀ) i j| ≤ 5 / 4 := by
          have n1 : ‖(1 : Mat3)‖ ≤ 1 := by
            refine (rowSums_iff zero_le_one).1 fun i => ?_
            simp [Matrix.one_apply, apply_ite abs]
          have n2 : ‖U‖ ≤ ‖U - 1‖ + ‖(1 : Mat3)‖ := by
            calc ‖U‖ = ‖(U - 1) + 1‖ := by rw [sub_add_cancel]
              _ ≤ _ := norm_add_le _ _
          have := (entry_norm _ i j).trans (norm_conj hS U)
          linarith [small_norm h]
        simp only [Tol.code]
        norm_num
        linarith)
      linarith
    have h4 := (entry_norm _ i j).trans hn
    rw [Matrix.sub_apply] at h4
    norm_num at h4 h1
    linarith

end norm

theorem strict_filter_length {α : Type} (G : List α) (P : α → Bool) (l : List ℕ) (h1 : l.Pairwise (· < ·))
    (h2 : ∀ i, i ∈ l ↔ ∃ Q, G[i]? = some Q ∧ P Q = true) : l.length = (G.filter P).length := by
  have hr : List.Perm l (((List.finRange G.length).filter (P ∘ G.get)).map Fin.val) := by
    refine (List.perm_ext_iff_of_nodup (h1.imp fun h => h.ne)
      ((List.nodup_map_iff Fin.val_injective).2 (List.Nodup.filter _ (List.nodup_finRange _)))).2 fun i => ?_
    rw [h2, List.mem_map]
    constructor
    · rintro ⟨Q, hQ, hp⟩
      obtain ⟨hi, rfl⟩ := List.getElem?_eq_some_iff.1 hQ
      exact ⟨⟨i, hi⟩, List.mem_filter.2 ⟨List.mem_finRange _, hp⟩, rfl⟩
    · rintro ⟨a, ha, rfl⟩
      exact ⟨G[a], List.getElem?_eq_getElem a.2, (List.mem_filter.1 ha).2⟩
  rw [hr.length_eq, List.length_map]
  have hG : (List.finRange G.length).map G.get = G := by rw [← List.ofFn_eq_map, List.ofFn_get]
  conv_rhs => rw [← hG, List.filter_map, List.length_map]

open Classical in
theorem small_index (h : SmallStretch U) (hc : ClearFor t U) :
    ∃ vs idx, variantLoop t U cubicR = (vs, idx) ∧ AreVariants U cubicR vs idx ∧
      vs.length * (cubicR.filter fun Q => decide (Q * U * Qᵀ = U)).length = 24 := by
  have hs := variants_spec (t := t) (U := U) cubicR_group cubicR_nodup cubicR_ortho (small_sep h hc)
  generalize variantLoop t U cubicR = r at hs
  obtain ⟨vs, idx⟩ := r
  refine ⟨vs, idx, rfl, hs, ?_⟩
  simp only at hs
  have hne : vs[0]? = some U := by rw [← List.head?_eq_getElem?]; exact hs.first
  have hlt := (List.getElem?_eq_some_iff.1 hne).1
  have hl : 0 < idx.length := by rw [hs.length]; exact hlt
  have hget := List.getElem?_eq_getElem hl
  obtain ⟨i1, i2⟩ := hs.index 0 U _ hne hget
  rw [← strict_filter_length cubicR _ _ i1 fun i => by simpa using i2 i, hs.count _ (List.getElem_mem hl)]
  simp [cubicR, cubicLaue]

theorem small_reversible (h : SmallStretch U) (hc : ClearFor t U) :
    Mart.isReversible t ⟨some U, cubicR⟩ = .ok true := by
  classical
  have hl : cubicR.length = 24 := by simp [cubicR, cubicLaue]
  obtain ⟨vs, idx, -, -, hcount⟩ := small_index h hc
  simp only [Mart.isReversible, lat_new_sq false (M := U) (spd_det_pos (small_spd h)).ne', small_laue h hc]
  have h1 : (cubicR.filter fun Q => decide (Q * U * Qᵀ = U)).length ≤ 24 := hl ▸ List.length_filter_le _ _
  have : hasSubgroup t cubicR (cubicR.filter fun Q => decide (Q * U * Qᵀ = U)) = true := by
    rw [C20_hassubgroup _ _ _ (by intro h; rw [h] at hl; simp at hl)]
    exact ⟨by rw [hl]; exact ⟨_, by rw [← hcount, mul_comm]⟩,
      fun A hA => ⟨A, (List.mem_filter.1 hA).1, allclose_self (tolOK_of hc.tol) A⟩⟩
  rw [this, hl]
  simpa using h1

theorem mem_cubicR {Q : Mat3} : Q ∈ cubicR ↔ ∃ R, IsCubeRotation R ∧ Q = realOf R := by
  simp only [cubicR, List.mem_map, cube_iff, realOf_eq, eq_comm]

/-- **C107**, Laue group: the rotations in the Laue group of a cube with a small stretch are exactly the rotations of
the cube that leave the stretch unchanged. -/
theorem C107_laue (h : SmallStretch U) (hc : t = .exact ∨ t = .code ∧ ClearSymmetry U) :
    ∃ lg, Lat.laueGroup t ⟨3, U⟩ = .ok lg ∧ lg.Nodup ∧
      ∀ Q, Q ∈ lg ↔ ∃ R, IsCubeRotation R ∧ Q = realOf R ∧ Q * U * Qᵀ = U := by
  classical
  refine ⟨_, small_laue h hc, cubicR_nodup.filter _, fun Q => ?_⟩
  simp only [List.mem_filter, mem_cubicR, decide_eq_true_eq]
  exact ⟨fun ⟨⟨R, h1, h2⟩, h3⟩ => ⟨R, h1, h2, h3⟩, fun ⟨R, h1, h2, h3⟩ => ⟨⟨R, h1, h2⟩, h3⟩⟩

/-- **C107**, variants: a martensite with a small stretch is reversible, its variants are the stretch itself, which is
the first one, and its images under the rotations of the cube, without repetition, and their number times the number
of rotations in the Laue group of the martensite is twenty four. -/
theorem C107_variants (h : SmallStretch U) (hc : t = .exact ∨ t = .code ∧ ClearSymmetry U) :
    ∃ lg vs idx, Lat.laueGroup t ⟨3, U⟩ = .ok lg ∧ Mart.isReversible t ⟨some U, cubicR⟩ = .ok true ∧
      Mart.getVariants t ⟨some U, cubicR⟩ = .ok vs ∧ Mart.getLaueIdx t ⟨some U, cubicR⟩ = .ok idx ∧
      AreVariants U cubicR vs idx ∧
      (∀ V, V ∈ vs ↔ ∃ R, IsCubeRotation R ∧ V = realOf R * U * (realOf R)ᵀ) ∧ vs.length * lg.length = 24 := by
  classical
  obtain ⟨vs, idx, h1, h2, h3⟩ := small_index h hc
  have hr := small_reversible h hc
  refine ⟨_, vs, idx, small_laue h hc, hr, ?_, ?_, h2, fun V => ?_, h3⟩
  · simp [Mart.getVariants, Mart.calcVariants, hr, h1]
  · simp [Mart.getLaueIdx, Mart.calcVariants, hr, h1]
  · rw [h2.orbit]
    simp only [mem_cubicR]
    exact ⟨fun ⟨Q, ⟨R, h1, h2⟩, h3⟩ => ⟨R, h1, h2 ▸ h3⟩, fun ⟨R, h1, h2⟩ => ⟨_, ⟨R, h1, rfl⟩, h2⟩⟩

/-- **C107**, through the API: `Martensite().setU(U)` accepts every small stretch, and then it has variants, whose
number divides twenty four. -/
theorem C107_setU (h : SmallStretch U) (hc : t = .exact ∨ t = .code ∧ ClearSymmetry U) :
    ∃ m vs, Mart.setU ⟨none, cubicR⟩ [.arr (.mat 3 3 false U)] = .ok m ∧ m.getU = .ok U ∧
      m.isReversible t = .ok true ∧ m.getVariants t = .ok vs ∧ vs.head? = some U ∧ vs.Nodup ∧ vs.length ∣ 24 ∧
      ∀ V, V ∈ vs ↔ ∃ R, IsCubeRotation R ∧ V = realOf R * U * (realOf R)ᵀ := by
  obtain ⟨lg, vs, idx, -, h1, h2, -, h3, h4, h5⟩ := C107_variants h hc
  refine ⟨⟨some U, cubicR⟩, vs, ?_, rfl, h1, h2, h3.first, h3.nodup, ⟨_, h5.symm⟩, h4⟩
  have hs := small_spd h
  simp only [Mart.setU, uOf]
  have hU : U.submatrix (Fin.cast (rfl : 3 = 3)) (Fin.cast (rfl : 3 = 3)) = U := by ext i j; rfl
  simp only [and_self, dite_true, hU]
  rw [if_neg (not_not.2 hs.1.symm), if_neg (not_not.2 (spd_det_pos hs))]

/-! ### a real alloy -/

/-- ten thousand times the stretch of Ni-Ti -/
def niti : Matrix (Fin 3) (Fin 3) ℤ := !![9563, -427, -427; -427, 10243, 580; -427, 580, 10243]

theorem niti_cases : ∀ R ∈ cubicLaue, R * niti * Rᵀ = niti ∨ ∃ i j, 1 ≤ |(R * niti * Rᵀ) i j - niti i j| := by
  unfold cubicLaue niti; decide +kernel

theorem niti_small : SmallStretch ((1 / 10 ^ 4 : ℝ) • realOf niti) := by
  constructor
  · ext i j
    fin_cases i <;> fin_cases j <;> simp [realOf, niti]
  · intro i
    rw [Fin.sum_univ_three]
    fin_cases i <;> simp [realOf, niti, abs_of_pos, Matrix.one_apply] <;> norm_num [abs_of_pos, abs_of_neg]

theorem niti_clear : ClearSymmetry ((1 / 10 ^ 4 : ℝ) • realOf niti) := by
  intro R hR
  have e : realOf R * ((1 / 10 ^ 4 : ℝ) • realOf niti) * (realOf R)ᵀ = (1 / 10 ^ 4 : ℝ) • realOf (R * niti * Rᵀ) := by
    simp only [realOf_eq, toR_mul, toR_transpose, Matrix.mul_smul, Matrix.smul_mul]
  rw [e]
  rcases niti_cases R (cube_iff.1 hR) with h | ⟨i, j, h⟩
  · exact .inl (by rw [h])
  · refine .inr ⟨i, j, ?_⟩
    have h1 : (1 : ℝ) ≤ |((R * niti * Rᵀ) i j : ℝ) - niti i j| := by exact_mod_cast h
    simp only [Matrix.smul_apply, realOf, Matrix.map_apply, smul_eq_mul, ← mul_sub, abs_mul]
    rw [abs_of_pos (by norm_num : (0 : ℝ) < 1 / 10 ^ 4)]
    linarith

/-- The stretch of Ni-Ti is small and its symmetry is clear, so the hypotheses hold for a real alloy, with the
tolerances of the code. -/
example : SmallStretch ((1 / 10 ^ 4 : ℝ) • realOf niti) ∧
    (Tol.code = .exact ∨ Tol.code = .code ∧ ClearSymmetry ((1 / 10 ^ 4 : ℝ) • realOf niti)) :=
  ⟨niti_small, .inr ⟨rfl, niti_clear⟩⟩

/-- It has twelve variants. -/
example : ∃ vs, Mart.getVariants .code ⟨some ((1 / 10 ^ 4 : ℝ) • realOf niti), cubicR⟩ = .ok vs ∧ vs.length = 12 := by
  classical
  obtain ⟨lg, vs, -, h1, -, h2, -, -, -, h3⟩ := C107_variants niti_small (.inr ⟨rfl, niti_clear⟩)
  refine ⟨vs, h2, ?_⟩
  rw [small_laue niti_small (.inr ⟨rfl, niti_clear⟩)] at h1
  have h4 : lg.length = 2 := by
    rw [← Except.ok.inj h1, cubicR, List.filter_map, List.length_map]
    have : cubicLaue.filter ((fun Q => decide (Q * ((1 / 10 ^ 4 : ℝ) • realOf niti) * Qᵀ = (1 / 10 ^ 4 : ℝ) • realOf niti)) ∘ toR)
        = cubicLaue.filter fun R => decide (R * niti * Rᵀ = niti) := by
      refine List.filter_congr fun R hR => ?_
      simp only [Function.comp, decide_eq_decide]
      have e : toR R * ((1 / 10 ^ 4 : ℝ) • realOf niti) * (toR R)ᵀ = (1 / 10 ^ 4 : ℝ) • realOf (R * niti * Rᵀ) := by
        simp only [realOf_eq, toR_mul, toR_transpose, Matrix.mul_smul, Matrix.smul_mul]
      rw [e]
      constructor
      · intro he
        exact toR_injective (smul_right_injective _ (by norm_num : (1 / 10 ^ 4 : ℝ) ≠ 0) he)
      · intro he
        rw [he]
    rw [this]
    unfold cubicLaue niti
    decide +kernel
  rw [h4] at h3
  omega

end Verif.Props
