import Verif.Props.FaceDiagonal
import Verif.Props.TwinFamilies
import Mathlib.Algebra.Order.BigOperators.Ring.Finset

/-!
# Twins of cubic to monoclinic transformations with the two-fold axis along a face diagonal

C108: which of the pairs of the twelve variants are twinnable, and how.
-/

namespace Verif.Props

open Matrix Verif.Model Verif.Spec Verif.Lemmas

local notation "Mat3" => Matrix (Fin 3) (Fin 3) ℝ

variable {g a e d : ℝ} {t : Tol} {i j k : Fin 3} {s s' : Fin 3 → ℝ}

/-! ### small stretches -/

theorem rows_contract {F : Mat3} (hsym : Fᵀ = F) {c : ℝ} (h : ∀ i, ∑ j, |F i j| ≤ c) (z : V3) :
    (F *ᵥ z) ⬝ᵥ (F *ᵥ z) ≤ c * c * (z ⬝ᵥ z) := by
  have hc : 0 ≤ c := le_trans (Finset.sum_nonneg fun j _ => abs_nonneg (F 0 j)) (h 0)
  have h1 : ∀ i, (F *ᵥ z) i * (F *ᵥ z) i ≤ c * ∑ j, |F i j| * (z j * z j) := fun i => by
    have := Finset.sum_sq_le_sum_mul_sum_of_sq_eq_mul Finset.univ (r := fun j => F i j * z j) (f := fun j => |F i j|)
      (g := fun j => |F i j| * (z j * z j)) (fun j _ => abs_nonneg _)
      (fun j _ => mul_nonneg (abs_nonneg _) (mul_self_nonneg _)) (fun j _ => by
        rw [← mul_assoc, abs_mul_abs_self]; ring)
    have e : (F *ᵥ z) i = ∑ j, F i j * z j := rfl
    rw [e, ← pow_two]
    exact this.trans (mul_le_mul_of_nonneg_right (h i)
      (Finset.sum_nonneg fun j _ => mul_nonneg (abs_nonneg _) (mul_self_nonneg _)))
  have hs : ∀ i j, |F i j| = |F j i| := fun i j => by
    have := congrFun (congrFun hsym j) i
    rw [transpose_apply] at this
    rw [this]
  calc (F *ᵥ z) ⬝ᵥ (F *ᵥ z) ≤ ∑ i, c * ∑ j, |F i j| * (z j * z j) := Finset.sum_le_sum fun i _ => h1 i
    _ = c * ∑ j, (∑ i, |F j i|) * (z j * z j) := by
      rw [← Finset.mul_sum, Finset.sum_comm]
      congr 1
      refine Finset.sum_congr rfl fun j _ => ?_
      rw [Finset.sum_mul]
      exact Finset.sum_congr rfl fun i _ => by rw [hs]
    _ ≤ c * ∑ j, c * (z j * z j) := mul_le_mul_of_nonneg_left
      (Finset.sum_le_sum fun j _ => mul_le_mul_of_nonneg_right (h j) (mul_self_nonneg _)) hc
    _ = c * c * (z ⬝ᵥ z) := by rw [← Finset.mul_sum, mul_assoc]; rfl

theorem small_bounds {U : Mat3} (h : SmallStretch U) (z : V3) :
    7569 / 10000 * (z ⬝ᵥ z) ≤ (U *ᵥ z) ⬝ᵥ (U *ᵥ z) ∧ (U *ᵥ z) ⬝ᵥ (U *ᵥ z) ≤ 12769 / 10000 * (z ⬝ᵥ z) := by
  have hF : (U - 1)ᵀ = U - 1 := by rw [transpose_sub, h.symmetric, transpose_one]
  have hM := rows_contract hF h.near z
  have hU : U *ᵥ z = z + (U - 1) *ᵥ z := by rw [sub_mulVec, one_mulVec, add_sub_cancel]
  set y := (U - 1) *ᵥ z with hy
  have p1 : 0 ≤ ((13 / 100 : ℝ) • z + y) ⬝ᵥ ((13 / 100 : ℝ) • z + y) := dotProduct_self_star_nonneg _
  have p2 : 0 ≤ ((13 / 100 : ℝ) • z - y) ⬝ᵥ ((13 / 100 : ℝ) • z - y) := dotProduct_self_star_nonneg _
  rw [hU]
  simp only [add_dotProduct, dotProduct_add, sub_dotProduct, dotProduct_sub, smul_dotProduct, dotProduct_smul, smul_eq_mul,
    dotProduct_comm y z] at p1 p2 ⊢
  constructor <;> linarith

/-- the test for compound pairs from below: the product of the vectors `x` and `U² x` -/
theorem far_of_cross {U : Mat3} (h : SmallStretch U) {x : V3} (hx : (U *ᵥ x) ⬝ᵥ (U *ᵥ x) = 1) {l m : Fin 3} (hlm : l ≠ m) :
    1 / 2 * (x l * ((U * U) *ᵥ x) m - x m * ((U * U) *ᵥ x) l) ^ 2 ≤
      ((U * U) *ᵥ x) ⬝ᵥ ((U * U) *ᵥ ((U * U) *ᵥ x)) - (((U * U) *ᵥ x) ⬝ᵥ ((U * U) *ᵥ x)) ^ 2 := by
  set y := (U * U) *ᵥ x with hy
  set c := y ⬝ᵥ y with hc
  have e1 : (U *ᵥ y) ⬝ᵥ (U *ᵥ y) = y ⬝ᵥ ((U * U) *ᵥ y) := by
    rw [← mulVec_mulVec, ← sym_dot h.symmetric]
  have e2 : (U *ᵥ y) ⬝ᵥ (U *ᵥ x) = c := by
    rw [hc]
    conv_rhs => rw [hy]
    rw [← hy, hy, ← mulVec_mulVec, ← sym_dot h.symmetric]
  have e3 : (U *ᵥ (y - c • x)) ⬝ᵥ (U *ᵥ (y - c • x)) = y ⬝ᵥ ((U * U) *ᵥ y) - c ^ 2 := by
    rw [mulVec_sub, mulVec_smul]
    simp only [sub_dotProduct, dotProduct_sub, smul_dotProduct, dotProduct_smul, smul_eq_mul, dotProduct_comm (U *ᵥ x) (U *ᵥ y),
      e1, e2, hx]
    ring
  have b1 := (small_bounds h (y - c • x)).1
  have b2 := (small_bounds h x).1
  rw [e3] at b1
  rw [hx] at b2
  obtain ⟨n, ha⟩ := axes_exist hlm
  set v := y - c • x with hv
  have hcross : x l * y m - x m * y l = x l * v m - x m * v l := by
    simp only [hv, Pi.sub_apply, Pi.smul_apply, smul_eq_mul]
    ring
  rw [hcross]
  have hlag : (x l * v m - x m * v l) ^ 2 ≤ (x ⬝ᵥ x) * (v ⬝ᵥ v) := by
    rw [dotProduct, dotProduct, ha.sum, ha.sum]
    nlinarith [mul_self_nonneg (x l * v l + x m * v m), mul_nonneg (mul_self_nonneg (x n)) (mul_self_nonneg (v l)),
      mul_nonneg (mul_self_nonneg (x n)) (mul_self_nonneg (v m)), mul_nonneg (mul_self_nonneg (x n)) (mul_self_nonneg (v n)),
      mul_nonneg (mul_self_nonneg (x l)) (mul_self_nonneg (v n)), mul_nonneg (mul_self_nonneg (x m)) (mul_self_nonneg (v n))]
  have hx0 : 0 ≤ x ⬝ᵥ x := dotProduct_self_star_nonneg x
  have hv0 : 0 ≤ v ⬝ᵥ v := dotProduct_self_star_nonneg v
  have m1 : (x ⬝ᵥ x) * (v ⬝ᵥ v) ≤ 10000 / 7569 * (v ⬝ᵥ v) := mul_le_mul_of_nonneg_right (by linarith) hv0
  linarith

/-! ### entries, squares and determinants -/

theorem fs_vec (h : Axes i j k) (hs : Signs s) (g a e d : ℝ) (x : V3) :
    (faceStretch g a e d i s *ᵥ x) i = g * x i + s i * s j * e * x j + s i * s k * e * x k ∧
    (faceStretch g a e d i s *ᵥ x) j = s i * s j * e * x i + a * x j + s j * s k * d * x k ∧
    (faceStretch g a e d i s *ᵥ x) k = s i * s k * e * x i + s j * s k * d * x j + a * x k := by
  obtain ⟨e1, e2, e3, e4, e5, e6, e7, e8, e9⟩ := fs_at h hs g a e d
  simp only [mulVec, dotProduct, h.sum, *]
  refine ⟨trivial, ?_, ?_⟩ <;> ring

theorem fs_sq (hs : Signs s) (i : Fin 3) (g a e d : ℝ) :
    faceStretch g a e d i s * faceStretch g a e d i s =
      faceStretch (g ^ 2 + 2 * e ^ 2) (a ^ 2 + d ^ 2 + e ^ 2) (e * (g + a + d)) (2 * a * d + e ^ 2) i s := by
  obtain ⟨j, k, h⟩ := other_axes i
  obtain ⟨e1, e2, e3, e4, e5, e6, e7, e8, e9⟩ := fs_at h hs g a e d
  obtain ⟨f1, f2, f3, f4, f5, f6, f7, f8, f9⟩ := fs_at h hs (g ^ 2 + 2 * e ^ 2) (a ^ 2 + d ^ 2 + e ^ 2) (e * (g + a + d))
    (2 * a * d + e ^ 2)
  ext l m
  rw [Matrix.mul_apply, h.sum]
  rcases hs i with hi | hi <;> rcases hs j with hj | hj <;> rcases hs k with hk | hk <;>
    rcases h.all l with rfl | rfl | rfl <;> rcases h.all m with rfl | rfl | rfl <;> simp only [*] <;> ring

theorem sym_det (h : Axes i j k) {M : Mat3} (hM : Mᵀ = M) :
    M.det = M i i * M j j * M k k + 2 * (M i j * M i k * M j k) - M i i * (M j k * M j k) - M j j * (M i k * M i k) -
      M k k * (M i j * M i j) := by
  have hs : ∀ l m, M l m = M m l := fun l m => by
    have := congrFun (congrFun hM m) l
    rwa [transpose_apply] at this
  have h10 := hs 1 0
  have h20 := hs 2 0
  have h21 := hs 2 1
  obtain ⟨h1, h2, h3⟩ := h
  fin_cases i <;> fin_cases j <;> fin_cases k <;> simp at h1 h2 h3 <;> simp only [det_fin_three, Fin.zero_eta, Fin.mk_one,
    Fin.reduceFinMk, h10, h20, h21] <;> ring

theorem fs_det (hs : Signs s) (i : Fin 3) (g a e d : ℝ) :
    (faceStretch g a e d i s).det = (a - d) * (g * (a + d) - 2 * e ^ 2) := by
  obtain ⟨j, k, h⟩ := other_axes i
  obtain ⟨e1, e2, e3, e4, e5, e6, e7, e8, e9⟩ := fs_at h hs g a e d
  rw [sym_det h fs_transpose, e1, e2, e3, e5, e6, e9]
  rcases hs i with hi | hi <;> rcases hs j with hj | hj <;> rcases hs k with hk | hk <;> rw [hi, hj, hk] <;> ring

theorem fs_repeated_sq (g a e d : ℝ) :
    (e * (g + a + d)) ^ 2 - (2 * a * d + e ^ 2) * (g ^ 2 + 2 * e ^ 2 + (2 * a * d + e ^ 2) - (a ^ 2 + d ^ 2 + e ^ 2)) =
      repeatedFaceStretch g a e d * (2 * a * (g + a - d) - 2 * e ^ 2) := by
  unfold repeatedFaceStretch; ring

/-! ### bounds on the parameters -/

/-- the consequences of `ClearlyFaceDiagonal` -/
structure FaceBounds (g a e d : ℝ) : Prop where
  E1 : 174 / 10000 ≤ |e * (g + a + d)|
  E2 : (e * (g + a + d)) ^ 2 ≤ 22 / 1000
  D2 : (2 * a * d + e ^ 2) ^ 2 ≤ 9 / 100
  sum : 174 / 100 ≤ g + a + d
  cof : 3 ≤ 2 * a * (g + a - d) - 2 * e ^ 2
  p2 : (a ^ 2 + d ^ 2 + e ^ 2 - (g ^ 2 + 2 * e ^ 2)) ^ 2 ≤ 3 / 10
  main : 8 / 10 ≤ a - d

theorem face_bounds (h : ClearlyFaceDiagonal g a e d) : FaceBounds g a e d := by
  have h1 := h.row
  have h2 := h.rows
  have h3 := h.shear
  have he0 := abs_nonneg e
  have hd0 := abs_nonneg d
  obtain ⟨g1, g2⟩ := abs_le.1 (show |g - 1| ≤ 13 / 100 - 2 * |e| by linarith)
  obtain ⟨a1, a2⟩ := abs_le.1 (show |a - 1| ≤ 13 / 100 - |e| - |d| by linarith)
  have hd1 := neg_abs_le d
  have hd2 := le_abs_self d
  have he2 : |e| ≤ 65 / 1000 := by linarith [abs_nonneg (g - 1)]
  have hee : e ^ 2 ≤ 4225 / 1000000 := by
    rw [← sq_abs]
    calc |e| ^ 2 ≤ (65 / 1000) ^ 2 := pow_le_pow_left₀ he0 he2 2
      _ = _ := by norm_num
  have hee0 := sq_nonneg e
  have hs1 : 174 / 100 ≤ g + a + d := by linarith
  have hs2 : g + a + d ≤ 226 / 100 := by linarith
  have hdd : |d| ≤ 13 / 100 := by linarith [abs_nonneg (a - 1)]
  have hdd2 : d ^ 2 ≤ 169 / 10000 := by
    rw [← sq_abs]
    calc |d| ^ 2 ≤ (13 / 100) ^ 2 := pow_le_pow_left₀ hd0 hdd 2
      _ = _ := by norm_num
  have hdd0 := sq_nonneg d
  have g1' : 87 / 100 ≤ g := by linarith
  have g2' : g ≤ 113 / 100 := by linarith
  have a1' : 87 / 100 ≤ a := by linarith
  have a2' : a ≤ 113 / 100 := by linarith
  have gg1 : 7569 / 10000 ≤ g ^ 2 := by nlinarith
  have gg2 : g ^ 2 ≤ 12769 / 10000 := by nlinarith
  have aa1 : 7569 / 10000 ≤ a ^ 2 := by nlinarith
  have aa2 : a ^ 2 ≤ 12769 / 10000 := by nlinarith
  constructor
  · rw [abs_mul, abs_of_pos (by linarith : 0 < g + a + d)]
    calc (174 : ℝ) / 10000 = 1 / 100 * (174 / 100) := by norm_num
      _ ≤ _ := mul_le_mul h3 hs1 (by norm_num) he0
  · rw [mul_pow]
    calc e ^ 2 * (g + a + d) ^ 2 ≤ 4225 / 1000000 * (226 / 100) ^ 2 :=
        mul_le_mul hee (pow_le_pow_left₀ (by linarith) hs2 2) (sq_nonneg _) (by norm_num)
      _ ≤ _ := by norm_num
  · have : |2 * a * d + e ^ 2| ≤ 3 / 10 := by
      have h5 : |2 * a * d| ≤ 2 * (113 / 100) * (13 / 100) := by
        rw [abs_mul, abs_of_pos (by linarith : 0 < 2 * a)]
        exact mul_le_mul (by linarith) hdd hd0 (by norm_num)
      obtain ⟨c1, c2⟩ := abs_le.1 h5
      rw [abs_le]
      constructor <;> linarith
    rw [← sq_abs]
    calc _ ≤ ((3 : ℝ) / 10) ^ 2 := pow_le_pow_left₀ (abs_nonneg _) this 2
      _ = _ := by norm_num
  · exact hs1
  · have h5 : 87 / 100 * (174 / 100) ≤ a * (g + a - d) := mul_le_mul a1' (by linarith) (by norm_num) (by linarith)
    linarith
  · have : |a ^ 2 + d ^ 2 + e ^ 2 - (g ^ 2 + 2 * e ^ 2)| ≤ 54 / 100 := by
      rw [abs_le]
      constructor <;> linarith
    rw [← sq_abs]
    calc _ ≤ ((54 : ℝ) / 100) ^ 2 := pow_le_pow_left₀ (abs_nonneg _) this 2
      _ ≤ _ := by norm_num
  · linarith

/-! ### pairs with one axis -/

theorem abs_sq_le {x y : ℝ} (hx : 0 ≤ x) (h : x ≤ |y|) : x ^ 2 ≤ y ^ 2 := by
  rw [← sq_abs y]
  exact pow_le_pow_left₀ hx h 2

/-- two stretches that differ in the sign of one axis other than `i` -/
theorem fs_edge_far (h : ClearlyFaceDiagonal g a e d) (hr : 1 / 10 ^ 4 ≤ |repeatedFaceStretch g a e d|) (ha : Axes i j k)
    (hs : Signs s) (hs' : Signs s') (hij : s' i * s' j = -(s i * s j)) (hik : s' i * s' k = s i * s k)
    (hjk : s' j * s' k = -(s j * s k)) (x : V3)
    (hx : (faceStretch g a e d i s' * faceStretch g a e d i s') *ᵥ x = (faceStretch g a e d i s * faceStretch g a e d i s) *ᵥ x)
    (hu : (faceStretch g a e d i s *ᵥ x) ⬝ᵥ (faceStretch g a e d i s *ᵥ x) = 1) :
    1 / 10 ^ 14 ≤ ((faceStretch g a e d i s * faceStretch g a e d i s) *ᵥ x) ⬝ᵥ ((faceStretch g a e d i s * faceStretch g a e d i s) *ᵥ
        ((faceStretch g a e d i s * faceStretch g a e d i s) *ᵥ x)) -
      (((faceStretch g a e d i s * faceStretch g a e d i s) *ᵥ x) ⬝ᵥ ((faceStretch g a e d i s * faceStretch g a e d i s) *ᵥ x)) ^ 2 := by
  refine le_trans ?_ (far_of_cross (fs_small h hs) hu ha.ik)
  have hb := (small_bounds (fs_small (i := i) h hs) x).2
  rw [hu, dotProduct, ha.sum] at hb
  have B := face_bounds h
  have hR := fs_repeated_sq g a e d
  rw [fs_sq hs, fs_sq hs'] at hx
  rw [fs_sq hs]
  obtain ⟨E1, E2, D2, -, cof, -, -⟩ := B
  generalize hG : g ^ 2 + 2 * e ^ 2 = G at *
  generalize hA : a ^ 2 + d ^ 2 + e ^ 2 = A at *
  generalize hE : e * (g + a + d) = E at *
  generalize hD : 2 * a * d + e ^ 2 = D at *
  obtain ⟨u1, u2, u3⟩ := fs_vec ha hs G A E D x
  obtain ⟨v1, v2, v3⟩ := fs_vec ha hs' G A E D x
  have r1 := congrFun hx i
  have r2 := congrFun hx j
  rw [u1, v1, hij, hik] at r1
  rw [u2, v2, hij, hjk] at r2
  rw [u1, u3]
  have hE0 : E ≠ 0 := by
    rintro rfl
    norm_num at E1
  have qi := signs_sq hs i
  have qj := signs_sq hs j
  have qk := signs_sq hs k
  have hxj : x j = 0 := by
    have : E * (s i * s j * x j) = 0 := by linarith
    have := (mul_eq_zero.1 this).resolve_left hE0
    have := congrArg (fun y => s i * s j * y) this
    simp only [mul_zero] at this
    linear_combination this - (s j * s j * x j) * qi - x j * qj
  have hxi : E * (s i * x i) = -(D * (s k * x k)) := by
    linear_combination (-1 / 2 * s j) * r2 - (E * (s i * x i) + D * (s k * x k)) * qj
  obtain ⟨c, hc⟩ : ∃ c, s k * x k = -(c * E) := ⟨-(s k * x k) / E, by field_simp⟩
  have hc' : s i * x i = c * D := by
    have : E * (s i * x i) = E * (c * D) := by rw [hxi, hc]; ring
    exact mul_left_cancel₀ hE0 this
  have ki : x i = s i * (c * D) := by rw [← hc']; linear_combination (-x i) * qi
  have kk : x k = -(s k * (c * E)) := by
    rw [show s k * (c * E) = -(s k * (s k * x k)) by rw [hc]; ring]; linear_combination (-x k) * qk
  have hcross : x i * (s i * s k * E * x i + s j * s k * D * x j + A * x k) -
      x k * (G * x i + s i * s j * E * x j + s i * s k * E * x k) =
      -(s i * s k) * (c * c * E * (E ^ 2 - D * (G + D - A))) := by
    rw [hxj, ki, kk]
    rcases hs i with hi | hi <;> rcases hs k with hk | hk <;> rw [hi, hk] <;> ring
  rw [hcross, hR]
  have hcc : 1 ≤ c * c * (1 / 5) := by
    rw [hxj, ki, kk] at hb
    have : s i * (c * D) * (s i * (c * D)) + 0 * 0 + -(s k * (c * E)) * -(s k * (c * E)) = c * c * (D ^ 2 + E ^ 2) := by
      linear_combination (c * D * (c * D)) * qi + (c * E * (c * E)) * qk
    rw [this] at hb
    have := mul_le_mul_of_nonneg_left (show D ^ 2 + E ^ 2 ≤ 112 / 1000 by linarith) (mul_self_nonneg c)
    linarith
  have hP : 25 / 10 ^ 6 ≤ |c * c * E * (repeatedFaceStretch g a e d * (2 * a * (g + a - d) - 2 * e ^ 2))| := by
    rw [abs_mul, abs_mul, abs_mul (repeatedFaceStretch _ _ _ _), abs_of_nonneg (mul_self_nonneg c),
      abs_of_pos (by linarith : 0 < 2 * a * (g + a - d) - 2 * e ^ 2)]
    have m1 : 5 * (174 / 10000) ≤ c * c * |E| := mul_le_mul (by linarith) E1 (by norm_num) (mul_self_nonneg c)
    have m2 : 1 / 10 ^ 4 * 3 ≤ |repeatedFaceStretch g a e d| * (2 * a * (g + a - d) - 2 * e ^ 2) :=
      mul_le_mul hr cof (by norm_num) (abs_nonneg _)
    have := mul_le_mul m1 m2 (by norm_num) (mul_nonneg (mul_self_nonneg c) (abs_nonneg E))
    refine le_trans (by norm_num) this
  have := abs_sq_le (by norm_num) hP
  have e1 : ∀ y : ℝ, (-(s i * s k) * y) ^ 2 = y ^ 2 := fun y => by
    linear_combination (s k * s k * y ^ 2) * qi + y ^ 2 * qk
  rw [e1]
  have : (1 : ℝ) / 10 ^ 14 ≤ 1 / 2 * (25 / 10 ^ 6) ^ 2 := by norm_num
  linarith

theorem diagonal_rows {A G E D τ ξ η ζ p q r : ℝ} (hτ : τ = 1 ∨ τ = -1) (hp : p = 1 ∨ p = -1) (hq : q = 1 ∨ q = -1)
    (hr : r = 1 ∨ r = -1)
    (r1 : p * q * E * (q * η) + A * (p * ξ) + τ * (p * r) * D * (r * ζ) =
      G * (p * ξ) + p * q * E * (q * η) + p * r * E * (r * ζ))
    (r2 : G * (q * η) + p * q * E * (p * ξ) + τ * (q * r) * E * (r * ζ) =
      p * q * E * (p * ξ) + A * (q * η) + q * r * D * (r * ζ))
    (r3 : τ * (q * r) * E * (q * η) + τ * (p * r) * D * (p * ξ) + A * (r * ζ) =
      p * r * E * (p * ξ) + q * r * D * (q * η) + A * (r * ζ)) :
    (A - G) * ξ = (E - τ * D) * ζ ∧ (A - G) * η = τ * (E - τ * D) * ζ ∧ (E - τ * D) * ξ = τ * (E - τ * D) * η := by
  rcases hτ with rfl | rfl <;> rcases hp with rfl | rfl <;> rcases hq with rfl | rfl <;> rcases hr with rfl | rfl <;>
    refine ⟨?_, ?_, ?_⟩ <;> linarith

theorem diagonal_cross {A G E D τ ξ η ζ p q r c : ℝ} (hτ : τ = 1 ∨ τ = -1) (hp : p = 1 ∨ p = -1) (hq : q = 1 ∨ q = -1)
    (hr : r = 1 ∨ r = -1) (c1 : ξ = c * (E - τ * D)) (c2 : η = c * (τ * (E - τ * D))) (c3 : ζ = c * (A - G)) :
    q * η * (p * r * E * (p * ξ) + q * r * D * (q * η) + A * (r * ζ)) -
      r * ζ * (p * q * E * (p * ξ) + A * (q * η) + q * r * D * (r * ζ)) =
      (q * r) * (c * c * (τ * (E - τ * D) - (A - G)) * (E ^ 2 - D * (G + D - A))) := by
  subst c1 c2 c3
  rcases hτ with rfl | rfl <;> rcases hp with rfl | rfl <;> rcases hq with rfl | rfl <;> rcases hr with rfl | rfl <;> ring

theorem diagonal_kernel {A G E D τ ξ η ζ : ℝ} (hτ : τ = 1 ∨ τ = -1) (hn' : 174 / 10000 ≤ |τ * (E - τ * D) - (A - G)|)
    (r1' : (A - G) * ξ = (E - τ * D) * ζ) (r2' : (A - G) * η = τ * (E - τ * D) * ζ)
    (r3' : (E - τ * D) * ξ = τ * (E - τ * D) * η) :
    ∃ c, ξ = c * (E - τ * D) ∧ η = c * (τ * (E - τ * D)) ∧ ζ = c * (A - G) := by
  have hττ : τ * τ = 1 := by rcases hτ with rfl | rfl <;> norm_num
  by_cases hp : A - G = 0
  · have hm : E - τ * D ≠ 0 := by
      intro hm
      rw [hm, hp] at hn'
      norm_num at hn'
    rw [hp, zero_mul] at r1'
    have hz := (mul_eq_zero.1 r1'.symm).resolve_left hm
    refine ⟨ξ / (E - τ * D), by field_simp, ?_, by rw [hp, hz, mul_zero]⟩
    have : ξ = τ * η := mul_left_cancel₀ hm (by linear_combination r3')
    rw [this]
    field_simp
    linear_combination (-η) * hττ
  · refine ⟨ζ / (A - G), ?_, ?_, by field_simp⟩
    · field_simp
      linear_combination r1'
    · field_simp
      linear_combination r2'

theorem diagonal_norm {A G E D τ ξ η ζ p q r c : ℝ} (hτ : τ = 1 ∨ τ = -1) (qi : p * p = 1) (qj : q * q = 1) (qk : r * r = 1)
    (c1 : ξ = c * (E - τ * D)) (c2 : η = c * (τ * (E - τ * D))) (c3 : ζ = c * (A - G)) (E2 : E ^ 2 ≤ 22 / 1000)
    (D2 : D ^ 2 ≤ 9 / 100) (p2 : (A - G) ^ 2 ≤ 3 / 10)
    (hb : 1 ≤ 12769 / 10000 * (p * ξ * (p * ξ) + q * η * (q * η) + r * ζ * (r * ζ))) : 1 ≤ c * c := by
  have hττ : τ * τ = 1 := by rcases hτ with rfl | rfl <;> norm_num
  have : p * ξ * (p * ξ) + q * η * (q * η) + r * ζ * (r * ζ) = c * c * (2 * (E - τ * D) ^ 2 + (A - G) ^ 2) := by
    rw [c1, c2, c3]
    linear_combination (c * (E - τ * D) * (c * (E - τ * D))) * qi + (c * (τ * (E - τ * D)) * (c * (τ * (E - τ * D)))) * qj +
      (c * (A - G) * (c * (A - G))) * qk + (c * c * (E - τ * D) ^ 2) * hττ
  rw [this] at hb
  have hm : 2 * (E - τ * D) ^ 2 ≤ 4 * (E ^ 2 + D ^ 2) := by
    have h1 := sq_nonneg (E - D)
    have h2 := sq_nonneg (E + D)
    rcases hτ with rfl | rfl <;> linarith
  have := mul_le_mul_of_nonneg_left (show 2 * (E - τ * D) ^ 2 + (A - G) ^ 2 ≤ 75 / 100 by linarith) (mul_self_nonneg c)
  linarith

theorem diagonal_bound {c x y z : ℝ} (hcc : 1 ≤ c * c) (hx : 174 / 10000 ≤ |x|) (hy : 1 / 10 ^ 4 ≤ |y|) (hz : 3 ≤ z) :
    1 / 10 ^ 14 ≤ 1 / 2 * (c * c * x * (y * z)) ^ 2 := by
  have hP : 5 / 10 ^ 6 ≤ |c * c * x * (y * z)| := by
    rw [abs_mul, abs_mul, abs_mul y, abs_of_nonneg (mul_self_nonneg c), abs_of_pos (by linarith : 0 < z)]
    have m1 : 1 * (174 / 10000) ≤ c * c * |x| := mul_le_mul hcc hx (by norm_num) (mul_self_nonneg c)
    have m2 : 1 / 10 ^ 4 * 3 ≤ |y| * z := mul_le_mul hy hz (by norm_num) (abs_nonneg _)
    have := mul_le_mul m1 m2 (by norm_num) (mul_nonneg (mul_self_nonneg c) (abs_nonneg _))
    refine le_trans (by norm_num) this
  have := abs_sq_le (by norm_num) hP
  have : (1 : ℝ) / 10 ^ 14 ≤ 1 / 2 * (5 / 10 ^ 6) ^ 2 := by norm_num
  linarith

/-- two stretches with different axes `i`, `j` in which the signs of these agree or both differ -/
theorem fs_diagonal_far (h : ClearlyFaceDiagonal g a e d) (hr : 1 / 10 ^ 4 ≤ |repeatedFaceStretch g a e d|)
    {τ : ℝ} (hτ : τ = 1 ∨ τ = -1) (hn : 1 / 100 ≤ |g - a - d + τ * e|) (ha : Axes i j k)
    (hs : Signs s) (hs' : Signs s') (hij : s' j * s' i = s i * s j) (hik : s' i * s' k = τ * (s i * s k))
    (hjk : s' j * s' k = τ * (s j * s k)) (x : V3)
    (hx : (faceStretch g a e d j s' * faceStretch g a e d j s') *ᵥ x = (faceStretch g a e d i s * faceStretch g a e d i s) *ᵥ x)
    (hu : (faceStretch g a e d i s *ᵥ x) ⬝ᵥ (faceStretch g a e d i s *ᵥ x) = 1) :
    1 / 10 ^ 14 ≤ ((faceStretch g a e d i s * faceStretch g a e d i s) *ᵥ x) ⬝ᵥ ((faceStretch g a e d i s * faceStretch g a e d i s) *ᵥ
        ((faceStretch g a e d i s * faceStretch g a e d i s) *ᵥ x)) -
      (((faceStretch g a e d i s * faceStretch g a e d i s) *ᵥ x) ⬝ᵥ ((faceStretch g a e d i s * faceStretch g a e d i s) *ᵥ x)) ^ 2 := by
  refine le_trans ?_ (far_of_cross (fs_small h hs) hu ha.jk)
  have hb := (small_bounds (fs_small (i := i) h hs) x).2
  rw [hu, dotProduct, ha.sum] at hb
  have B := face_bounds h
  have hR := fs_repeated_sq g a e d
  have hN : τ * (e * (g + a + d) - τ * (2 * a * d + e ^ 2)) - (a ^ 2 + d ^ 2 + e ^ 2 - (g ^ 2 + 2 * e ^ 2)) =
      (g + a + d) * (g - a - d + τ * e) := by
    rcases hτ with rfl | rfl <;> ring
  rw [fs_sq hs, fs_sq hs'] at hx
  rw [fs_sq hs]
  obtain ⟨E1, E2, D2, hsum, cof, p2, -⟩ := B
  have hn' : 174 / 10000 ≤ |(g + a + d) * (g - a - d + τ * e)| := by
    rw [abs_mul, abs_of_pos (by linarith : 0 < g + a + d)]
    calc (174 : ℝ) / 10000 = 174 / 100 * (1 / 100) := by norm_num
      _ ≤ _ := mul_le_mul hsum hn (by norm_num) (by linarith)
  rw [← hN] at hn'
  clear hN
  generalize hG : g ^ 2 + 2 * e ^ 2 = G at *
  generalize hA : a ^ 2 + d ^ 2 + e ^ 2 = A at *
  generalize hE : e * (g + a + d) = E at *
  generalize hD : 2 * a * d + e ^ 2 = D at *
  obtain ⟨u1, u2, u3⟩ := fs_vec ha hs G A E D x
  obtain ⟨v1, v2, v3⟩ := fs_vec ha.swap hs' G A E D x
  have r1 := congrFun hx i
  have r2 := congrFun hx j
  have r3 := congrFun hx k
  rw [u1, v2, hij, hik] at r1
  rw [u2, v1, hij, hjk] at r2
  rw [u3, v3, hik, hjk] at r3
  rw [u2, u3]
  have qi := signs_sq hs i
  have qj := signs_sq hs j
  have qk := signs_sq hs k
  obtain ⟨ξ, hξ⟩ : ∃ ξ, s i * x i = ξ := ⟨_, rfl⟩
  obtain ⟨η, hη⟩ : ∃ η, s j * x j = η := ⟨_, rfl⟩
  obtain ⟨ζ, hζ⟩ : ∃ ζ, s k * x k = ζ := ⟨_, rfl⟩
  have ki : x i = s i * ξ := by rw [← hξ]; linear_combination (-x i) * qi
  have kj : x j = s j * η := by rw [← hη]; linear_combination (-x j) * qj
  have kk : x k = s k * ζ := by rw [← hζ]; linear_combination (-x k) * qk
  rw [ki, kj, kk] at r1 r2 r3 hb ⊢
  obtain ⟨r1', r2', r3'⟩ := diagonal_rows hτ (hs i) (hs j) (hs k) r1 r2 r3
  obtain ⟨c, c1, c2, c3⟩ := diagonal_kernel hτ hn' r1' r2' r3'
  have hcross : s j * η * (s i * s k * E * (s i * ξ) + s j * s k * D * (s j * η) + A * (s k * ζ)) -
      s k * ζ * (s i * s j * E * (s i * ξ) + A * (s j * η) + s j * s k * D * (s k * ζ)) =
      (s j * s k) * (c * c * (τ * (E - τ * D) - (A - G)) * (E ^ 2 - D * (G + D - A))) := by
    exact diagonal_cross hτ (hs i) (hs j) (hs k) c1 c2 c3
  rw [hcross, hR]
  have hcc := diagonal_norm hτ qi qj qk c1 c2 c3 E2 D2 p2 hb
  have e1 : ∀ y : ℝ, ((s j * s k) * y) ^ 2 = y ^ 2 := fun y => by
    linear_combination (s k * s k * y ^ 2) * qj + y ^ 2 * qk
  rw [e1]
  exact diagonal_bound hcc hn' hr cof

/-! ### the axes -/

theorem fs_edge_axis (ha : Axes i j k) (hs : Signs s) (hs' : Signs s') (hij : s' i * s' j = -(s i * s j))
    (hik : s' i * s' k = s i * s k) :
    IsTwinAxis (faceStretch g a e d i s) (faceStretch g a e d i s') (Pi.single j 1) := by
  refine ⟨by simp, ?_⟩
  rw [edgeTurn_eq]
  have h1 : ∀ l m, ((edgeTurn j l m : ℤ) : ℝ) = if m = id l then (if l = j then 1 else -1 : ℝ) else 0 := fun l m => by
    simp only [edgeTurn, Matrix.of_apply, id]
    by_cases hlm : l = m
    · subst hlm
      by_cases hl : l = j <;> simp [hl]
    · simp [hlm, Ne.symm hlm]
  rw [fs_turn (i := i) h1 (fun _ _ h => h) rfl]
  apply fs_same
  refine ⟨rfl, fun l m => ?_⟩
  have qi := signs_sq hs i
  have qi' := signs_sq hs' i
  have key : ∀ l, ((if i = j then 1 else -1) * s i) * ((if l = j then 1 else -1) * s l) = s' i * s' l := fun l => by
    rw [if_neg ha.ij]
    rcases ha.all l with rfl | rfl | rfl
    · rw [if_neg ha.ij, qi']; linear_combination qi
    · rw [if_pos rfl, hij]; ring
    · rw [if_neg ha.jk.symm, hik]; ring
  have key2 : (if l = j then 1 else -1) * s (id l) * ((if m = j then 1 else -1) * s (id m)) =
      (((if i = j then 1 else -1) * s i) * ((if l = j then 1 else -1) * s l)) *
      (((if i = j then 1 else -1) * s i) * ((if m = j then 1 else -1) * s m)) := by
    rw [if_neg ha.ij]
    simp only [id]
    linear_combination (-((if l = j then 1 else -1) * s l * ((if m = j then 1 else -1) * s m))) * qi
  rw [key2, key, key]
  linear_combination (s' l * s' m) * qi'

theorem fs_diagonal_axis (ha : Axes i j k) (hs : Signs s) (hs' : Signs s') (hij : s' j * s' i = s i * s j)
    {ε : ℝ} (hε : ε = -(s' i * s' k * (s j * s k))) :
    IsTwinAxis (faceStretch g a e d i s) (faceStretch g a e d j s') (diagonalNormal i j ε) := by
  have qi := signs_sq hs i
  have qj := signs_sq hs j
  have qk := signs_sq hs k
  have qi' := signs_sq hs' i
  have qj' := signs_sq hs' j
  have qk' := signs_sq hs' k
  obtain ⟨z, hz, hzz⟩ : ∃ z : ℤ, (z : ℝ) = ε ∧ z * z = 1 := by
    have : ε = 1 ∨ ε = -1 := by
      rw [hε]
      rcases hs' i with h1 | h1 <;> rcases hs' k with h2 | h2 <;> rcases hs j with h3 | h3 <;> rcases hs k with h4 | h4 <;>
        rw [h1, h2, h3, h4] <;> norm_num
    rcases this with h | h
    · exact ⟨1, by rw [h]; norm_num, rfl⟩
    · exact ⟨-1, by rw [h]; norm_num, rfl⟩
  have hεε : ε * ε = 1 := by rw [← hz]; exact_mod_cast hzz
  rw [← hz]
  refine ⟨diagonalNormal_unit ha.ij (by exact_mod_cast hzz), ?_⟩
  rw [faceTurn_eq ha.ij hzz]
  have h1 : ∀ l m, ((faceTurn i j z l m : ℤ) : ℝ) = if m = Equiv.swap i j l then (if l = k then -1 else ε : ℝ) else 0 := by
    intro l m
    obtain ⟨n1, n2, n3⟩ := ha
    rcases Axes.all ⟨n1, n2, n3⟩ l with rfl | rfl | rfl <;> rcases Axes.all ⟨n1, n2, n3⟩ m with rfl | rfl | rfl <;>
      simp [faceTurn, n1, n2, n3, n1.symm, n2.symm, n3.symm, hz, Equiv.swap_apply_of_ne_of_ne]
  rw [fs_turn (i := i) h1 (fun _ _ h => (Equiv.swap i j).injective h) (Equiv.swap_apply_right i j)]
  apply fs_same
  refine ⟨rfl, fun l m => ?_⟩
  set σ : Fin 3 → ℝ := fun l => (if l = k then -1 else ε) * s (Equiv.swap i j l) with hσ
  have σi : σ i = ε * s j := by simp [hσ, ha.ik]
  have σj : σ j = ε * s i := by simp [hσ, ha.jk]
  have σk : σ k = -s k := by simp [hσ, Equiv.swap_apply_of_ne_of_ne ha.ik.symm ha.jk.symm]
  have key : ∀ l, σ i * σ l = s' i * s' l := fun l => by
    rcases ha.all l with rfl | rfl | rfl
    · rw [σi, qi']; linear_combination (ε * ε) * qj + hεε
    · rw [σi, σj, mul_comm (s' i), hij]; linear_combination (s i * s l) * hεε
    · rw [σi, σk, hε]; linear_combination (s' i * s' l * (s l * s l)) * qj + (s' i * s' l) * qk
  have hi2 : σ i * σ i = 1 := by rw [key, qi']
  have k2 : σ l * σ m = (σ i * σ l) * (σ i * σ m) := by linear_combination (-(σ l * σ m)) * hi2
  show σ l * σ m = s' l * s' m
  rw [k2, key, key]
  linear_combination (s' l * s' m) * qi'

theorem fs_apart (h : ClearlyFaceDiagonal g a e d) {i' : Fin 3} (hs : Signs s) (hs' : Signs s')
    (hne : ¬ (i = i' ∧ ∀ l m, s l * s m = s' l * s' m)) :
    ∃ l m, 1 / 10 ^ 12 ≤ |faceStretch g a e d i s l m - faceStretch g a e d i' s' l m| := by
  rcases fs_gap h hs hs' with h1 | ⟨l, m, h1⟩
  · exact absurd h1 hne
  · exact ⟨l, m, le_trans (by norm_num) h1⟩

/-- **C108**, two variants with the same axis `i` that differ in the sign at one other axis `j`: twins of type I and II,
the first with the cube face of `j` as twin plane. -/
theorem C108_edge_axis (eig : Mat3 → EigRes) (heig : ∀ A, Aᵀ = A → EigOK (eig A).vals (eig A).vecs A)
    (ht : t = .code ∨ t = .exact) (rnd : ℝ → ℝ) (h : ClearlyFaceDiagonal g a e d)
    (hr : 1 / 10 ^ 4 ≤ |repeatedFaceStretch g a e d|) (hij : i ≠ j) (hik : i ≠ k) (hjk : j ≠ k) (hs : Signs s) (hs' : Signs s')
    (h1 : s' i * s' j = -(s i * s j)) (h2 : s' i * s' k = s i * s k) (skip : Bool) :
    ∃ P, TwinPair.new eig (faceStretch g a e d i s) (faceStretch g a e d i s') skip = .ok P ∧
      TypeTwins eig t rnd P (faceStretch g a e d i s) (faceStretch g a e d i s') (Pi.single j 1) := by
  have ha : Axes i j k := ⟨hij, hik, hjk⟩
  have qi := signs_sq hs i
  have qi' := signs_sq hs' i
  have h3 : s' j * s' k = -(s j * s k) := by
    have : s' j * s' k = (s' i * s' j) * (s' i * s' k) := by linear_combination (-(s' j * s' k)) * qi'
    rw [this, h1, h2]
    linear_combination (-(s j * s k)) * qi
  obtain ⟨vs, g1, -, -, -, g5, -⟩ := fs_variants ht h i hs
  refine type_twins eig heig t rnd (small_spd (fs_small h hs)) (small_spd (fs_small h hs')) (fs_edge_axis ha hs hs' h1 h2)
    (fs_apart h hs hs' ?_) (fs_edge_far h hr ha hs hs' h1 h2 h3) g1 ((g5 _).2 ⟨i, s', hs', rfl⟩) skip
  rintro ⟨-, hc⟩
  have := hc i j
  rw [h1] at this
  have h0 : s i * s j = 0 := by linarith
  have qj := signs_sq hs j
  have : (s i * s j) * (s i * s j) = 1 := by linear_combination (s j * s j) * qi + qj
  rw [h0] at this
  norm_num at this

/-- **C108**, two variants with different axes `i`, `j` whose signs at these agree up to a common one: twins of type I and
II, the first with a face diagonal plane between the two axes as twin plane. -/
theorem C108_diagonal_axis (eig : Mat3 → EigRes) (heig : ∀ A, Aᵀ = A → EigOK (eig A).vals (eig A).vecs A)
    (ht : t = .code ∨ t = .exact) (rnd : ℝ → ℝ) (h : ClearlyFaceDiagonal g a e d)
    (hr : 1 / 10 ^ 4 ≤ |repeatedFaceStretch g a e d|) (hn : 1 / 100 ≤ |g - a - d + e|) (hn' : 1 / 100 ≤ |g - a - d - e|)
    (hij : i ≠ j) (hik : i ≠ k) (hjk : j ≠ k) (hs : Signs s) (hs' : Signs s') (h1 : s' i * s' j = s i * s j) (skip : Bool) :
    ∃ P, TwinPair.new eig (faceStretch g a e d i s) (faceStretch g a e d j s') skip = .ok P ∧
      TypeTwins eig t rnd P (faceStretch g a e d i s) (faceStretch g a e d j s')
        (diagonalNormal i j (-(s' i * s' k * (s j * s k)))) := by
  have ha : Axes i j k := ⟨hij, hik, hjk⟩
  have qi := signs_sq hs i
  have qj := signs_sq hs j
  have qk := signs_sq hs k
  have qi' := signs_sq hs' i
  obtain ⟨τ, hτ⟩ : ∃ τ, τ = s' i * s' k * (s i * s k) := ⟨_, rfl⟩
  have hτ1 : τ = 1 ∨ τ = -1 := by
    rw [hτ]
    rcases hs' i with h1 | h1 <;> rcases hs' k with h2 | h2 <;> rcases hs i with h3 | h3 <;> rcases hs k with h4 | h4 <;>
      rw [h1, h2, h3, h4] <;> norm_num
  have h2 : s' i * s' k = τ * (s i * s k) := by
    rw [hτ]; linear_combination (-(s' i * s' k * (s k * s k))) * qi - (s' i * s' k) * qk
  have h1' : s' j * s' i = s i * s j := by rw [mul_comm, h1]
  have h3 : s' j * s' k = τ * (s j * s k) := by
    have : s' j * s' k = (s' i * s' j) * (s' i * s' k) := by linear_combination (-(s' j * s' k)) * qi'
    rw [this, h1, h2]
    linear_combination (τ * (s j * s k)) * qi
  obtain ⟨vs, g1, -, -, -, g5, -⟩ := fs_variants ht h i hs
  refine type_twins eig heig t rnd (small_spd (fs_small h hs)) (small_spd (fs_small h hs')) (fs_diagonal_axis ha hs hs' h1' rfl)
    (fs_apart h hs hs' fun hc => hij hc.1) (fs_diagonal_far h hr hτ1 ?_ ha hs hs' h1' h2 h3) g1 ((g5 _).2 ⟨j, s', hs', rfl⟩) skip
  rcases hτ1 with rfl | rfl
  · rwa [one_mul]
  · rwa [show g - a - d + -1 * e = g - a - d - e by ring]

/-! ### compound pairs -/

/-- **C108**, two variants with the same axis `i` that differ in the sign at it: they are twinnable and compound. -/
theorem C108_compound (eig : Mat3 → EigRes) (heig : ∀ A, Aᵀ = A → EigOK (eig A).vals (eig A).vecs A)
    (ht : t = .code ∨ t = .exact) (rnd : ℝ → ℝ) (h : ClearlyFaceDiagonal g a e d)
    (hij : i ≠ j) (hik : i ≠ k) (hjk : j ≠ k) (hs : Signs s) (hs' : Signs s')
    (h1 : s' i * s' j = -(s i * s j)) (h2 : s' i * s' k = -(s i * s k)) (skip : Bool) :
    ∃ P, TwinPair.new eig (faceStretch g a e d i s) (faceStretch g a e d i s') skip = .ok P ∧
      CompoundTwins eig t rnd P (faceStretch g a e d i s) (faceStretch g a e d i s') := by
  have ha : Axes i j k := ⟨hij, hik, hjk⟩
  have qi := signs_sq hs i
  have qj := signs_sq hs j
  have qk := signs_sq hs k
  have qi' := signs_sq hs' i
  have h3 : s' j * s' k = s j * s k := by
    have : s' j * s' k = (s' i * s' j) * (s' i * s' k) := by linear_combination (-(s' j * s' k)) * qi'
    rw [this, h1, h2]
    linear_combination (s j * s k) * qi
  obtain ⟨vs, g1, -, -, -, g5, -⟩ := fs_variants ht h i hs
  obtain ⟨R, hR, hrel⟩ := fs_transitive i i hs hs'
  set u : V3 := fun l => if l = j then s j else if l = k then -s k else 0 with hu
  have ui : u i = 0 := by simp [hu, hij, hik]
  have uj : u j = s j := by simp [hu]
  have uk : u k = -s k := by simp [hu, hjk.symm]
  have hu0 : u ≠ 0 := by
    intro h0
    have := congrFun h0 j
    rw [uj, Pi.zero_apply] at this
    rw [this] at qj
    norm_num at qj
  have own : ∀ {w : Fin 3 → ℝ}, Signs w → w j * w k = s j * s k → (w i * w j = s i * s j ∧ w i * w k = s i * s k ∨
      w i * w j = -(s i * s j) ∧ w i * w k = -(s i * s k)) → faceStretch g a e d i w *ᵥ u = (a - d) • u := by
    intro w hw w1 w2
    obtain ⟨r1, r2, r3⟩ := fs_vec ha hw g a e d u
    funext l
    rcases ha.all l with rfl | rfl | rfl
    · rw [r1, Pi.smul_apply, ui, uj, uk, smul_eq_mul]
      rcases w2 with ⟨w2, w3⟩ | ⟨w2, w3⟩ <;> rw [w2, w3]
      · linear_combination (s l * e) * qj - (s l * e) * qk
      · linear_combination (-(s l * e)) * qj + (s l * e) * qk
    · rw [r2, Pi.smul_apply, ui, uj, uk, smul_eq_mul, w1]
      linear_combination (-(s l * d)) * qk
    · rw [r3, Pi.smul_apply, ui, uj, uk, smul_eq_mul, w1]
      linear_combination (s l * d) * qj
  refine compound_twins eig heig t rnd (small_spd (fs_small h hs)) (small_spd (fs_small h hs'))
    ⟨toR R, cubic_rotation hR, (hrel _ _ _ _).symm⟩ (fs_apart h hs hs' ?_) hu0
    (show a - d ≠ 0 by linarith [(face_bounds h).main]) (own hs rfl (.inl ⟨rfl, rfl⟩)) (own hs' h3 (.inr ⟨h1, h2⟩)) g1
    ((g5 _).2 ⟨i, s', hs', rfl⟩) skip
  rintro ⟨-, hc⟩
  have := hc i j
  rw [h1] at this
  have h0 : s i * s j = 0 := by linarith
  have : (s i * s j) * (s i * s j) = 1 := by linear_combination (s j * s j) * qi + qj
  rw [h0] at this
  norm_num at this

/-! ### the other pairs -/

theorem fs_sq_det (ha : Axes i j k) (hs : Signs s) (hs' : Signs s') (h1 : s' i * s' j = -(s i * s j)) :
    ∃ τ : ℝ, (τ = 1 ∨ τ = -1) ∧
    (faceStretch g a e d j s' * faceStretch g a e d j s' - faceStretch g a e d i s * faceStretch g a e d i s).det =
      τ * (4 * (e * (g + a + d)) * (repeatedFaceStretch g a e d * (2 * a * (g + a - d) - 2 * e ^ 2))) := by
  have qi := signs_sq hs i
  have qj := signs_sq hs j
  have qk := signs_sq hs k
  have qi' := signs_sq hs' i
  obtain ⟨τ, hτ⟩ : ∃ τ, τ = s' i * s' k * (s i * s k) := ⟨_, rfl⟩
  have hτ1 : τ = 1 ∨ τ = -1 := by
    rw [hτ]
    rcases hs' i with h1 | h1 <;> rcases hs' k with h2 | h2 <;> rcases hs i with h3 | h3 <;> rcases hs k with h4 | h4 <;>
      rw [h1, h2, h3, h4] <;> norm_num
  have h2 : s' i * s' k = τ * (s i * s k) := by
    rw [hτ]; linear_combination (-(s' i * s' k * (s k * s k))) * qi - (s' i * s' k) * qk
  have h1' : s' j * s' i = -(s i * s j) := by rw [mul_comm, h1]
  have h3 : s' j * s' k = -(τ * (s j * s k)) := by
    have : s' j * s' k = (s' i * s' j) * (s' i * s' k) := by linear_combination (-(s' j * s' k)) * qi'
    rw [this, h1, h2]
    linear_combination (-(τ * (s j * s k))) * qi
  refine ⟨-τ, by rcases hτ1 with rfl | rfl <;> norm_num, ?_⟩
  rw [← fs_repeated_sq, fs_sq hs, fs_sq hs']
  generalize g ^ 2 + 2 * e ^ 2 = G
  generalize a ^ 2 + d ^ 2 + e ^ 2 = A
  generalize e * (g + a + d) = E
  generalize 2 * a * d + e ^ 2 = D
  obtain ⟨e1, e2, e3, e4, e5, e6, e7, e8, e9⟩ := fs_at ha hs G A E D
  obtain ⟨f1, f2, f3, f4, f5, f6, f7, f8, f9⟩ := fs_at ha.swap hs' G A E D
  rw [sym_det ha (by rw [transpose_sub, fs_transpose, fs_transpose])]
  simp only [Matrix.sub_apply, e1, e2, e3, e5, e6, e9, f1, f3, f4, f5, f6, f9, h1, h2, h3]
  rcases hτ1 with rfl | rfl <;>
    rcases hs i with hi | hi <;> rcases hs j with hj | hj <;> rcases hs k with hk | hk <;> rw [hi, hj, hk] <;> ring

/-- **C108**, two variants with different axes `i`, `j` whose signs at these do not agree up to a common one: they are
rank-one connected only if the stretch along the two-fold axis is a repeated one. -/
theorem C108_connected (h : ClearlyFaceDiagonal g a e d) (hij : i ≠ j) (hs : Signs s) (hs' : Signs s')
    (h1 : s' i * s' j = -(s i * s j)) :
    RankOneConnected (faceStretch g a e d i s) (faceStretch g a e d j s') ↔ repeatedFaceStretch g a e d = 0 := by
  obtain ⟨k, ha⟩ := axes_exist hij
  have B := face_bounds h
  obtain ⟨τ, hτ, hdet⟩ := fs_sq_det (g := g) (a := a) (e := e) (d := d) ha hs hs' h1
  rw [connected_iff_det (small_spd (fs_small h hs)) (small_spd (fs_small h hs')) (by rw [fs_det hs, fs_det hs']), hdet]
  have n1 : τ ≠ 0 := by rcases hτ with rfl | rfl <;> norm_num
  have n2 : e * (g + a + d) ≠ 0 := by
    intro h0
    have := B.E1
    rw [h0] at this
    norm_num at this
  have n3 : 2 * a * (g + a - d) - 2 * e ^ 2 ≠ 0 := by linarith [B.cof]
  constructor
  · intro h0
    have := (mul_eq_zero.1 h0).resolve_left n1
    rcases mul_eq_zero.1 this with h2 | h2
    · exact absurd h2 (mul_ne_zero (by norm_num) n2)
    · exact (mul_eq_zero.1 h2).resolve_right n3
  · intro h0; rw [h0]; ring

theorem mid_far_small {l0 l1 l2 w D : ℝ} (h0 : 5927 / 10000 ≤ l0) (h0' : l0 ≤ l1) (h2' : l1 ≤ l2) (h2 : l2 ≤ 16871 / 10000)
    (hprod : l0 * l1 * l2 = 1) (hD : 0 < D) (hD' : D ≤ 13402 / 10000) (hw : 188 / 10 ^ 5 ≤ |w|)
    (h : (l0 - 1) * (l1 - 1) * (l2 - 1) * D = w) : ¬ |l1 - 1| < 5 / 10 ^ 3 := by
  intro hl
  have a0 : l0 ≤ 1 := by
    by_contra hc
    push Not at hc
    have : 1 < l0 * l1 := by nlinarith
    nlinarith
  have a2 : 1 ≤ l2 := by
    by_contra hc
    push Not at hc
    have : l0 * l1 < 1 := by nlinarith
    nlinarith
  have e : |w| = (1 - l0) * (l2 - 1) * (|l1 - 1| * D) := by
    rw [← h, abs_mul, abs_mul, abs_mul, abs_of_pos hD, abs_of_nonneg (by linarith : 0 ≤ l2 - 1),
      abs_of_nonpos (by linarith : l0 - 1 ≤ 0)]
    ring
  have m1 : (1 - l0) * (l2 - 1) ≤ 4073 / 10000 * (6871 / 10000) :=
    mul_le_mul (by linarith) (by linarith) (by linarith) (by norm_num)
  have m2 : |l1 - 1| * D ≤ 5 / 10 ^ 3 * (13402 / 10000) := mul_le_mul hl.le hD' hD.le (by norm_num)
  have m3 : |w| ≤ 4073 / 10000 * (6871 / 10000) * (5 / 10 ^ 3 * (13402 / 10000)) := by
    rw [e]
    exact mul_le_mul m1 m2 (mul_nonneg (abs_nonneg _) hD.le) (by norm_num)
  norm_num at m3 hw
  linarith

/-- a pair of small stretches with squares that differ clearly in every direction -/
theorem not_twinnable_small (eig : Mat3 → EigRes) (heig : ∀ A, Aᵀ = A → EigOK (eig A).vals (eig A).vecs A) {U V : Mat3}
    (hU : SmallStretch U) (hV : SmallStretch V) (hdet : U.det = V.det) (hdet' : U.det * U.det ≤ 13402 / 10000)
    (hw : 188 / 10 ^ 5 ≤ |(V * V - U * U).det|) (skip : Bool) :
    ∃ P, TwinPair.new eig U V skip = .ok P ∧ P.isTwinnable = false := by
  have sU := small_spd hU
  have sV := small_spd hV
  refine ⟨_, new_ok eig sU sV skip, ?_⟩
  obtain ⟨he, hm⟩ := sortEig_spec (heig _ (relMetric_symm sU.1 sV.1))
  rw [Bool.eq_false_iff]
  intro hc
  obtain ⟨-, hl⟩ := (isTwinnable_iff _).1 hc
  have hl : |(sortEig eig (relMetric U V)).vals 1 - 1| < 5 / 10 ^ 3 := hl
  set e := sortEig eig (relMetric U V)
  have hUd := spd_det_pos sU
  have h1 := relMetric_det_sub (V := V) hUd.ne'
  rw [eigenvalues_sub he.eigenvalues] at h1
  have h2 : e.vals 0 * e.vals 1 * e.vals 2 = 1 := by
    rw [← det_three he.eigenvalues, relMetric, det_mul, det_mul, det_mul, det_nonsing_inv, Ring.inverse_eq_inv', ← hdet]
    field_simp
  have h01 : e.vals 0 ≤ e.vals 1 := hm (by decide)
  have h12 : e.vals 1 ≤ e.vals 2 := hm (by decide)
  have low : ∀ l, 5927 / 10000 ≤ e.vals l ∧ e.vals l ≤ 16871 / 10000 := by
    intro l
    obtain ⟨z, hz1, hz⟩ := eig_value sU sV (he.unit l) (he.eigenvector l)
    obtain ⟨u1, u2⟩ := small_bounds hU z
    obtain ⟨v1, v2⟩ := small_bounds hV z
    rw [hz1] at u1 u2
    rw [← hz] at v1 v2
    constructor <;> linarith
  exact mid_far_small (low 0).1 h01 h12 (low 2).2 h2 (mul_pos hUd hUd) hdet' hw h1 hl

/-- **C108**, such a pair is not twinnable unless the stretch along the two-fold axis is nearly a repeated one. -/
theorem C108_not_twinnable (eig : Mat3 → EigRes) (heig : ∀ A, Aᵀ = A → EigOK (eig A).vals (eig A).vecs A)
    (h : ClearlyFaceDiagonal g a e d) (hg : |g - 1| ≤ 1 / 20) (ha1 : |a - 1| ≤ 1 / 20) (hd : |d| ≤ 7 / 100)
    (hr : 8 / 10 ^ 5 ≤ |e * repeatedFaceStretch g a e d|) (hij : i ≠ j) (hs : Signs s) (hs' : Signs s')
    (h1 : s' i * s' j = -(s i * s j)) (skip : Bool) :
    ∃ P, TwinPair.new eig (faceStretch g a e d i s) (faceStretch g a e d j s') skip = .ok P ∧ P.isTwinnable = false := by
  obtain ⟨k, ha⟩ := axes_exist hij
  obtain ⟨g1, g2⟩ := abs_le.1 hg
  obtain ⟨a1, a2⟩ := abs_le.1 ha1
  obtain ⟨d1, d2⟩ := abs_le.1 hd
  have he2 : |e| ≤ 65 / 1000 := by linarith [h.row, abs_nonneg (g - 1)]
  have hee : e ^ 2 ≤ 4225 / 1000000 := by
    rw [← sq_abs]
    calc |e| ^ 2 ≤ (65 / 1000) ^ 2 := pow_le_pow_left₀ (abs_nonneg e) he2 2
      _ = _ := by norm_num
  have hee0 := sq_nonneg e
  have hdd := sq_nonneg d
  refine not_twinnable_small eig heig (fs_small h hs) (fs_small h hs') (by rw [fs_det hs, fs_det hs']) ?_ ?_ skip
  · rw [fs_det hs]
    have p1 : 0 ≤ (a - d) * (g * (a + d) - 2 * e ^ 2) := by
      have : 95 / 100 * (88 / 100) ≤ g * (a + d) := mul_le_mul (by linarith) (by linarith) (by norm_num) (by linarith)
      exact mul_nonneg (by linarith) (by linarith)
    have p2 : (a - d) * (g * (a + d) - 2 * e ^ 2) ≤ 1157625 / 1000000 := by
      have q1 : (a - d) * (g * (a + d) - 2 * e ^ 2) = g * (a ^ 2 - d ^ 2) - 2 * (e ^ 2 * (a - d)) := by ring
      have q2 : 0 ≤ e ^ 2 * (a - d) := mul_nonneg hee0 (by linarith)
      have q3 : a ^ 2 - d ^ 2 ≤ (105 / 100) ^ 2 := by nlinarith
      have q4 : 0 ≤ a ^ 2 - d ^ 2 := by nlinarith
      have q5 : g * (a ^ 2 - d ^ 2) ≤ 105 / 100 * (105 / 100) ^ 2 := mul_le_mul (by linarith) q3 q4 (by norm_num)
      rw [q1]
      norm_num at q5
      linarith
    have := mul_le_mul p2 p2 p1 (by norm_num)
    exact this.trans (by norm_num)
  · obtain ⟨τ, hτ, hdet⟩ := fs_sq_det (g := g) (a := a) (e := e) (d := d) ha hs hs' h1
    rw [hdet, show τ * (4 * (e * (g + a + d)) * (repeatedFaceStretch g a e d * (2 * a * (g + a - d) - 2 * e ^ 2))) =
      τ * (e * repeatedFaceStretch g a e d * (4 * ((g + a + d) * (2 * a * (g + a - d) - 2 * e ^ 2)))) by ring, abs_mul]
    have hτ1 : |τ| = 1 := by rcases hτ with rfl | rfl <;> norm_num
    have c1 : 183 / 100 ≤ g + a + d := by linarith
    have c2 : 346 / 100 ≤ 2 * a * (g + a - d) - 2 * e ^ 2 := by
      have : 95 / 100 * (183 / 100) ≤ a * (g + a - d) := mul_le_mul (by linarith) (by linarith) (by norm_num) (by linarith)
      linarith
    have c3 := mul_le_mul c1 c2 (by norm_num) (by linarith)
    rw [hτ1, one_mul, abs_mul, abs_of_nonneg (by linarith : 0 ≤ 4 * ((g + a + d) * (2 * a * (g + a - d) - 2 * e ^ 2)))]
    have := mul_le_mul hr (show 183 / 100 * (346 / 100) * 4 ≤ 4 * ((g + a + d) * (2 * a * (g + a - d) - 2 * e ^ 2)) by linarith)
      (by norm_num) (abs_nonneg _)
    exact le_trans (by norm_num) this

/-! ### the whole system -/

/-- the sign of the index at the axis `l`, as a truth value -/
def faceBit (x : FaceIndex) (l : Fin 3) : Bool := ![true, x.2.1, x.2.2] l

/-- whether two indices have equal signs at the axis `l` -/
def bitsAgree (x y : FaceIndex) (l : Fin 3) : Bool := faceBit x l == faceBit y l

theorem faceSigns_bit (x : FaceIndex) (l : Fin 3) : faceSigns x l = (signZ (faceBit x l) : ℝ) := by
  fin_cases l
  · show (1 : ℝ) = (signZ true : ℝ)
    simp [signZ]
  · rfl
  · rfl

theorem bits_product (x y : FaceIndex) (l m : Fin 3) :
    faceSigns y l * faceSigns y m =
      if bitsAgree x y l = bitsAgree x y m then faceSigns x l * faceSigns x m else -(faceSigns x l * faceSigns x m) := by
  simp only [faceSigns_bit, bitsAgree]
  cases faceBit x l <;> cases faceBit x m <;> cases faceBit y l <;> cases faceBit y m <;> simp [signZ]

theorem succ_axes (i : Fin 3) : Axes i (i + 1) (i + 2) := by
  fin_cases i <;> exact ⟨by decide, by decide, by decide⟩

theorem index_ext {x y : FaceIndex} (h1 : x.1 = y.1) (h2 : bitsAgree x y 0 = bitsAgree x y 1)
    (h3 : bitsAgree x y 0 = bitsAgree x y 2) : x = y := by
  revert x y
  decide +kernel

theorem index_ext' {x y : FaceIndex} (h1 : x.1 = y.1) {i j k : Fin 3} (ha : Axes i j k)
    (h2 : bitsAgree x y i = bitsAgree x y j) (h3 : bitsAgree x y i = bitsAgree x y k) : x = y := by
  have : ∀ l, bitsAgree x y l = bitsAgree x y i := fun l => by
    rcases ha.all l with rfl | rfl | rfl
    · rfl
    · exact h2.symm
    · exact h3.symm
  exact index_ext h1 ((this 0).trans (this 1).symm) ((this 0).trans (this 2).symm)

theorem bool_three : ∀ x y z : Bool, y ≠ z → (x ≠ y ∧ x = z) ∨ (x ≠ z ∧ x = y) := by decide

/-- **C108**: the system of the twelve variants has 42 twin pairs, 6 of them compound and 36 of type I and II, and all
of them are conventional. -/
theorem C108_system (eig : Mat3 → EigRes) (heig : ∀ A, Aᵀ = A → EigOK (eig A).vals (eig A).vecs A)
    (ht : t = .code ∨ t = .exact) (h : ClearlyFaceDiagonal g a e d) (hg : |g - 1| ≤ 1 / 20) (ha1 : |a - 1| ≤ 1 / 20)
    (hd : |d| ≤ 7 / 100) (hr : 8 / 10 ^ 5 ≤ |e * repeatedFaceStretch g a e d|) (hn : 1 / 100 ≤ |g - a - d + e|)
    (hn' : 1 / 100 ≤ |g - a - d - e|) (i : Fin 3) (hs : Signs s) :
    SystemOf eig t ⟨some (faceStretch g a e d i s), cubicR⟩ 42 6 36 := by
  have hrep : 1 / 10 ^ 4 ≤ |repeatedFaceStretch g a e d| := by
    rw [abs_mul] at hr
    have he2 : |e| ≤ 65 / 1000 := by linarith [h.row, abs_nonneg (g - 1)]
    have h2 := mul_le_mul_of_nonneg_right he2 (abs_nonneg (repeatedFaceStretch g a e d))
    linarith
  obtain ⟨x, -, hx⟩ := face_index i hs
  rw [hx]
  refine system_of eig (fun x : FaceIndex => faceStretch g a e d x.1 (faceSigns x))
    (fun x y => bitsAgree x y x.1 == bitsAgree x y y.1)
    (fun x y => decide (x.1 = y.1) && (bitsAgree x y (x.1 + 1) == bitsAgree x y (x.1 + 2))) ?_ ?_ ?_ ?_ ?_
    (by decide +kernel) (by decide +kernel) (by decide +kernel) x
  · intro x
    obtain ⟨vs, h1, h2, h3, -, -, h6⟩ := fs_variants ht h x.1 (faceSigns_ok x)
    exact ⟨vs, h1, h2, h3, h6⟩
  · exact fun x => small_spd (fs_small h (faceSigns_ok x))
  · decide +kernel
  · decide +kernel
  · intro x y hxy
    by_cases hi : x.1 = y.1
    · have hT : (bitsAgree x y x.1 == bitsAgree x y y.1) = true := by rw [hi, beq_iff_eq]
      have hax := succ_axes x.1
      simp only [hT]
      simp only [hi, decide_true, Bool.true_and]
      rw [← hi]
      by_cases hc : bitsAgree x y (x.1 + 1) = bitsAgree x y (x.1 + 2)
      · have hne : bitsAgree x y x.1 ≠ bitsAgree x y (x.1 + 1) := fun h1 => hxy (index_ext' hi hax h1 (h1.trans hc))
        obtain ⟨P, h1, h2, h3, h4, -⟩ := C108_compound eig heig ht id h hax.ij hax.ik hax.jk (faceSigns_ok x) (faceSigns_ok y)
          (by rw [bits_product x y, if_neg hne]) (by rw [bits_product x y, if_neg (hc ▸ hne)]) true
        refine ⟨P, h1, h2, fun _ => ?_⟩
        rw [h3, h4, beq_iff_eq.2 hc]
        exact ⟨rfl, rfl⟩
      · have hcf : (bitsAgree x y (x.1 + 1) == bitsAgree x y (x.1 + 2)) = false := by simpa using hc
        rw [hcf]
        rcases bool_three (bitsAgree x y x.1) _ _ hc with ⟨h1, h2⟩ | ⟨h1, h2⟩
        · obtain ⟨P, g1, g2, g3, g4, -⟩ := C108_edge_axis eig heig ht id h hrep hax.ij hax.ik hax.jk (faceSigns_ok x)
            (faceSigns_ok y) (by rw [bits_product x y, if_neg h1]) (by rw [bits_product x y, if_pos h2]) true
          exact ⟨P, g1, g2, fun _ => ⟨g3, g4⟩⟩
        · obtain ⟨P, g1, g2, g3, g4, -⟩ := C108_edge_axis eig heig ht id h hrep hax.ik hax.ij hax.jk.symm (faceSigns_ok x)
            (faceSigns_ok y) (by rw [bits_product x y, if_neg h1]) (by rw [bits_product x y, if_pos h2]) true
          exact ⟨P, g1, g2, fun _ => ⟨g3, g4⟩⟩
    · obtain ⟨k, hax⟩ := axes_exist hi
      have hC : (decide (x.1 = y.1) && (bitsAgree x y (x.1 + 1) == bitsAgree x y (x.1 + 2))) = false := by simp [hi]
      simp only [hC]
      by_cases hc : bitsAgree x y x.1 = bitsAgree x y y.1
      · obtain ⟨P, g1, g2, g3, g4, -⟩ := C108_diagonal_axis eig heig ht id h hrep hn hn' hax.ij hax.ik hax.jk (faceSigns_ok x)
          (faceSigns_ok y) (by rw [bits_product x y, if_pos hc]) true
        exact ⟨P, g1, by rw [g2, beq_iff_eq.2 hc], fun _ => ⟨g3, g4⟩⟩
      · obtain ⟨P, g1, g2⟩ := C108_not_twinnable eig heig h hg ha1 hd hr hi (faceSigns_ok x) (faceSigns_ok y)
          (by rw [bits_product x y, if_neg hc]) true
        have hcf : (bitsAgree x y x.1 == bitsAgree x y y.1) = false := by simpa using hc
        exact ⟨P, g1, by rw [g2, hcf], fun hT => by rw [hcf] at hT; exact absurd hT (by decide)⟩

/-- **C108**, through the API: `Martensite().setU(U)` accepts the stretch, and `TwinSystem` of the object has the table. -/
theorem C108_setU (eig : Mat3 → EigRes) (heig : ∀ A, Aᵀ = A → EigOK (eig A).vals (eig A).vecs A)
    (ht : t = .code ∨ t = .exact) (h : ClearlyFaceDiagonal g a e d) (hg : |g - 1| ≤ 1 / 20) (ha1 : |a - 1| ≤ 1 / 20)
    (hd : |d| ≤ 7 / 100) (hr : 8 / 10 ^ 5 ≤ |e * repeatedFaceStretch g a e d|) (hn : 1 / 100 ≤ |g - a - d + e|)
    (hn' : 1 / 100 ≤ |g - a - d - e|) (i : Fin 3) (hs : Signs s) :
    ∃ m, Mart.setU ⟨none, cubicR⟩ [.arr (.mat 3 3 false (faceStretch g a e d i s))] = .ok m ∧ m.isReversible t = .ok true ∧
      SystemOf eig t m 42 6 36 := by
  have hst := fs_small h hs (i := i)
  obtain ⟨m, vs, h1, h2, h3, -⟩ := C107_setU hst (clear_for ht (fs_clear h hs))
  refine ⟨m, h1, h3, ?_⟩
  have := C108_system eig heig ht h hg ha1 hd hr hn hn' i hs
  have hm : m = ⟨some (faceStretch g a e d i s), cubicR⟩ := by
    have hU : (faceStretch g a e d i s).submatrix (Fin.cast (rfl : 3 = 3)) (Fin.cast (rfl : 3 = 3)) = faceStretch g a e d i s := by
      ext l m; rfl
    have hp := small_spd hst
    simp only [Mart.setU, uOf, and_self, dite_true, hU] at h1
    rw [if_neg (not_not.2 hp.1.symm), if_neg (not_not.2 (spd_det_pos hp))] at h1
    cases h1
    rfl
  rw [hm]
  exact this

/-- Ni-Ti meets all the hypotheses. -/
example : ClearlyFaceDiagonal (0.9563 : ℝ) 1.0243 (-0.0427) 0.058 ∧ |(0.9563 : ℝ) - 1| ≤ 1 / 20 ∧ |(1.0243 : ℝ) - 1| ≤ 1 / 20 ∧
    |(0.058 : ℝ)| ≤ 7 / 100 ∧ 8 / 10 ^ 5 ≤ |(-0.0427 : ℝ) * repeatedFaceStretch 0.9563 1.0243 (-0.0427) 0.058| ∧
    1 / 100 ≤ |(0.9563 : ℝ) - 1.0243 - 0.058 + -0.0427| ∧ 1 / 100 ≤ |(0.9563 : ℝ) - 1.0243 - 0.058 - -0.0427| := by
  refine ⟨niti_face, ?_⟩
  norm_num [repeatedFaceStretch, abs_of_pos, abs_of_neg]

/-- The three kinds of pairs occur. -/
example : Signs ![1, 1, 1] ∧ Signs ![1, -1, 1] ∧ Signs ![-1, 1, 1] ∧
    (![(1 : ℝ), -1, 1] 0 * ![(1 : ℝ), -1, 1] 1 = -(![(1 : ℝ), 1, 1] 0 * ![(1 : ℝ), 1, 1] 1)) ∧
    (![(1 : ℝ), -1, 1] 0 * ![(1 : ℝ), -1, 1] 2 = ![(1 : ℝ), 1, 1] 0 * ![(1 : ℝ), 1, 1] 2) ∧
    (![(-1 : ℝ), 1, 1] 0 * ![(-1 : ℝ), 1, 1] 1 = -(![(1 : ℝ), 1, 1] 0 * ![(1 : ℝ), 1, 1] 1)) ∧
    (![(-1 : ℝ), 1, 1] 0 * ![(-1 : ℝ), 1, 1] 2 = -(![(1 : ℝ), 1, 1] 0 * ![(1 : ℝ), 1, 1] 2)) := by
  refine ⟨?_, ?_, ?_, by simp, by simp, by simp, by simp⟩ <;> intro l <;> fin_cases l <;> simp

end Verif.Props
