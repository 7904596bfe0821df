import Verif.Spec.AxisTwins
import Verif.Props.GenericTwins
import Verif.Props.Trigonal

/-!
# The types of the twins about an axis

C113: two variants of a small stretch that a half turn about `n` carries to each other are a compound twin if the direction
perpendicular to `n` before and after the stretch is a principal one, and twins of type I and II if it clearly is not.
-/

namespace Verif.Props

open Matrix Verif.Model Verif.Spec Verif.Lemmas

local notation "Mat3" => Matrix (Fin 3) (Fin 3) ℝ

variable {U V W : Mat3} {t : Tol}

/-! ### images of a small stretch are small -/

section norm

attribute [local instance] Matrix.linftyOpNormedRing Matrix.linftyOpNormedAddCommGroup

theorem image_small (h : SmallStretch U) (hV : Image U V) : SmallStretch V := by
  have key : ‖V - 1‖ ≤ 13 / 100 → SmallStretch V := fun hk =>
    ⟨(image_spd h hV).1, (rowSums_iff (A := V - 1) (c := 13 / 100) (by norm_num)).2 hk⟩
  refine key ?_
  obtain ⟨R, hR, rfl⟩ := hV
  have e : realOf R * U * (realOf R)ᵀ - 1 = toR R * (U - 1) * (toR R)ᵀ := by
    rw [Matrix.mul_sub, Matrix.sub_mul, Matrix.mul_one, toR_ortho (cube_iff.1 hR), realOf_eq]
  rw [e]
  exact (norm_conj (cube_iff.1 hR) _).trans (small_norm h)

end norm

theorem entry_turn {R : Matrix (Fin 3) (Fin 3) ℤ} (hR : R ∈ cubicLaue) {A : Mat3} {c : ℝ} (h : ∃ i j, c ≤ |A i j|) :
    ∃ i j, c ≤ |(toR R * A * (toR R)ᵀ) i j| := by
  by_contra hn
  push Not at hn
  obtain ⟨i, j, hij⟩ := h
  set B := toR R * A * (toR R)ᵀ with hB
  have e : A = toR Rᵀ * B * (toR Rᵀ)ᵀ := by
    rw [hB, toR_transpose, transpose_transpose]
    simp only [Matrix.mul_assoc]
    rw [toR_ortho' hR, Matrix.mul_one, ← Matrix.mul_assoc, toR_ortho' hR, Matrix.one_mul]
  have row : ∀ l : Fin 3, ∑ k, |toR Rᵀ l k| = 1 := fun l => by
    have := cubic_row_one _ (cubeLaue_transpose hR) l
    rw [Fin.sum_univ_three]
    simp only [toR, Matrix.map_apply]
    exact_mod_cast this
  obtain ⟨k, hk⟩ : ∃ k, 0 < |toR Rᵀ i k| := by
    by_contra hk
    push Not at hk
    have := Finset.sum_nonpos fun k (_ : k ∈ Finset.univ) => hk k
    rw [row] at this
    linarith
  obtain ⟨l, hl⟩ : ∃ k, 0 < |toR Rᵀ j k| := by
    by_contra hk
    push Not at hk
    have := Finset.sum_nonpos fun k (_ : k ∈ Finset.univ) => hk k
    rw [row] at this
    linarith
  have hlt : |A i j| < c := by
    calc |A i j| = |∑ m, (∑ k, toR Rᵀ i k * B k m) * toR Rᵀ j m| := by
          conv_lhs => rw [e]
          rw [Matrix.mul_apply]
          rfl
      _ ≤ ∑ m, ∑ k, |toR Rᵀ i k| * |toR Rᵀ j m| * |B k m| := by
          refine (Finset.abs_sum_le_sum_abs _ _).trans (Finset.sum_le_sum fun m _ => ?_)
          rw [Finset.sum_mul]
          refine (Finset.abs_sum_le_sum_abs _ _).trans (Finset.sum_le_sum fun k _ => ?_)
          rw [abs_mul, abs_mul]
          exact le_of_eq (by ring)
      _ < ∑ m, ∑ k, |toR Rᵀ i k| * |toR Rᵀ j m| * c := by
          refine Finset.sum_lt_sum (fun m _ => Finset.sum_le_sum fun k _ => ?_) ⟨l, Finset.mem_univ l,
            Finset.sum_lt_sum (fun k _ => ?_) ⟨k, Finset.mem_univ k, ?_⟩⟩
          · exact mul_le_mul_of_nonneg_left (hn k m).le (by positivity)
          · exact mul_le_mul_of_nonneg_left (hn k l).le (by positivity)
          · exact mul_lt_mul_of_pos_left (hn k l) (by positivity)
      _ = c := by
          have : ∀ m, ∑ k, |toR Rᵀ i k| * |toR Rᵀ j m| * c = |toR Rᵀ j m| * c := fun m => by
            rw [← Finset.sum_mul, ← Finset.sum_mul, row, one_mul]
          simp only [this]
          rw [← Finset.sum_mul, row, one_mul]
  exact absurd hij (not_le.2 hlt)

theorem image_clear (hc : ClearSymmetry U) (hV : Image U V) : ClearSymmetry V := by
  obtain ⟨S, hS, rfl⟩ := hV
  intro R hR
  have hS' := cube_iff.1 hS
  have hR' := cube_iff.1 hR
  have hT : Sᵀ * R * S ∈ cubicLaue := cubeLaue_mul (cubeLaue_mul (cubeLaue_transpose hS') hR') hS'
  have e : toR R * (toR S * U * (toR S)ᵀ) * (toR R)ᵀ = toR S * (toR (Sᵀ * R * S) * U * (toR (Sᵀ * R * S))ᵀ) * (toR S)ᵀ := by
    simp only [toR_mul, toR_transpose, Matrix.transpose_mul, transpose_transpose]
    simp only [Matrix.mul_assoc]
    rw [← Matrix.mul_assoc (toR S) (toR S)ᵀ, toR_ortho hS', Matrix.one_mul, Matrix.mul_one]
  rw [realOf_eq, realOf_eq, e]
  rcases hc _ (cube_iff.2 hT) with h | h
  · left
    rw [realOf_eq] at h
    rw [h]
  · right
    rw [realOf_eq] at h
    have := entry_turn hS' (A := toR (Sᵀ * R * S) * U * (toR (Sᵀ * R * S))ᵀ - U) (by simpa only [Matrix.sub_apply] using h)
    simpa only [Matrix.mul_sub, Matrix.sub_mul, Matrix.sub_apply] using this

/-! ### bounds -/

theorem cauchy3 (a b : V3) : (a ⬝ᵥ b) ^ 2 ≤ a ⬝ᵥ a * (b ⬝ᵥ b) := by
  rw [dot3, dot3, dot3]
  nlinarith [mul_self_nonneg (a 0 * b 1 - a 1 * b 0), mul_self_nonneg (a 0 * b 2 - a 2 * b 0),
    mul_self_nonneg (a 1 * b 2 - a 2 * b 1)]

theorem self_nonneg (a : V3) : 0 ≤ a ⬝ᵥ a := by
  rw [dot3]
  nlinarith [mul_self_nonneg (a 0), mul_self_nonneg (a 1), mul_self_nonneg (a 2)]

theorem self_pos {a : V3} (h : a ≠ 0) : 0 < a ⬝ᵥ a :=
  lt_of_le_of_ne (self_nonneg a) fun h0 => h (dotProduct_self_eq_zero.1 h0.symm)

theorem small_lower (h : SmallStretch U) (x : V3) : 3 / 4 * (x ⬝ᵥ x) ≤ (U *ᵥ x) ⬝ᵥ (U *ᵥ x) := by
  by_cases hx : x = 0
  · rw [hx]; simp
  have hp := self_pos hx
  have h1 := small_quad h x
  have h2 := cauchy3 x (U *ᵥ x)
  have h3 : (87 / 100 * (x ⬝ᵥ x)) ^ 2 ≤ x ⬝ᵥ x * ((U *ᵥ x) ⬝ᵥ (U *ᵥ x)) :=
    (pow_le_pow_left₀ (by positivity) h1 2).trans h2
  have h4 : x ⬝ᵥ x * (7569 / 10000 * (x ⬝ᵥ x)) ≤ x ⬝ᵥ x * ((U *ᵥ x) ⬝ᵥ (U *ᵥ x)) := by linarith
  have h5 := le_of_mul_le_mul_left h4 hp
  linarith

theorem small_upper (h : SmallStretch U) (x : V3) : (U *ᵥ x) ⬝ᵥ (U *ᵥ x) ≤ 4 * (x ⬝ᵥ x) := by
  have row : ∀ i, (U *ᵥ x) i * (U *ᵥ x) i ≤ 4 / 3 * (x ⬝ᵥ x) := fun i => by
    have h1 := h.near i
    have h2 : ∑ j, |U i j| ≤ 113 / 100 := by
      have e : ∑ j, |(1 : Mat3) i j| = 1 := by
        simp only [Matrix.one_apply, apply_ite abs, abs_one, abs_zero]
        simp
      calc ∑ j, |U i j| ≤ ∑ j, (|U i j - (1 : Mat3) i j| + |(1 : Mat3) i j|) :=
            Finset.sum_le_sum fun j _ => by
              have := abs_add_le (U i j - (1 : Mat3) i j) ((1 : Mat3) i j)
              rwa [sub_add_cancel] at this
        _ ≤ 113 / 100 := by rw [Finset.sum_add_distrib, e]; linarith
    have h3 : U i ⬝ᵥ U i ≤ (113 / 100) ^ 2 := by
      have h0 : 0 ≤ ∑ j, |U i j| := Finset.sum_nonneg fun j _ => abs_nonneg _
      refine le_trans ?_ (pow_le_pow_left₀ h0 h2 2)
      rw [Fin.sum_univ_three, dot3]
      nlinarith [abs_mul_abs_self (U i 0), abs_mul_abs_self (U i 1), abs_mul_abs_self (U i 2),
        mul_nonneg (abs_nonneg (U i 0)) (abs_nonneg (U i 1)), mul_nonneg (abs_nonneg (U i 0)) (abs_nonneg (U i 2)),
        mul_nonneg (abs_nonneg (U i 1)) (abs_nonneg (U i 2))]
    have h4 := cauchy3 (U i) x
    have h5 := mul_le_mul_of_nonneg_right h3 (self_nonneg x)
    have h6 := self_nonneg x
    show (U i ⬝ᵥ x) * (U i ⬝ᵥ x) ≤ _
    nlinarith
  rw [dot3 (U *ᵥ x)]
  linarith [row 0, row 1, row 2]

theorem lagrange3 (a b : V3) : (a ⨯₃ b) ⬝ᵥ (a ⨯₃ b) = a ⬝ᵥ a * (b ⬝ᵥ b) - (a ⬝ᵥ b) ^ 2 := by
  rw [dot3, dot3, dot3, dot3]
  simp [cross_apply]
  ring

/-- the stretch changes areas by a bounded factor -/
theorem gram_lower {m : ℝ} (hm : 0 ≤ m) (hU : ∀ x : V3, m * (x ⬝ᵥ x) ≤ (U *ᵥ x) ⬝ᵥ (U *ᵥ x)) (a b : V3) :
    m ^ 2 * ((a ⨯₃ b) ⬝ᵥ (a ⨯₃ b)) ≤
      (U *ᵥ a) ⬝ᵥ (U *ᵥ a) * ((U *ᵥ b) ⬝ᵥ (U *ᵥ b)) - ((U *ᵥ a) ⬝ᵥ (U *ᵥ b)) ^ 2 := by
  have gap := cauchy3 (U *ᵥ a) (U *ᵥ b)
  set p := (U *ᵥ b) ⬝ᵥ (U *ᵥ b) with hp
  set q := (U *ᵥ a) ⬝ᵥ (U *ᵥ b) with hq
  set r := (U *ᵥ a) ⬝ᵥ (U *ᵥ a) with hr
  rw [lagrange3]
  by_cases hb : b ⬝ᵥ b = 0
  · have hb0 := dotProduct_self_eq_zero.1 hb
    rw [hb0]
    simp only [dotProduct_zero, mul_zero]
    linarith
  have hbp : 0 < b ⬝ᵥ b := lt_of_le_of_ne (self_nonneg b) (Ne.symm hb)
  rcases hm.lt_or_eq with hm | hm
  swap
  · rw [← hm]
    linarith
  have hb1 := hU b
  rw [← hp] at hb1
  have hpp : 0 < p := lt_of_lt_of_le (mul_pos hm hbp) hb1
  -- the part of `a` that is perpendicular to `b` after the stretch
  have h1 := hU (p • a - q • b)
  have e1 : (U *ᵥ (p • a - q • b)) ⬝ᵥ (U *ᵥ (p • a - q • b)) = p * (r * p - q ^ 2) := by
    rw [mulVec_sub, mulVec_smul, mulVec_smul]
    simp only [sub_dotProduct, dotProduct_sub, smul_dotProduct, dotProduct_smul, smul_eq_mul]
    rw [dotProduct_comm (U *ᵥ b) (U *ᵥ a), ← hp, ← hq, ← hr]
    ring
  have e2 : (b ⬝ᵥ b) * ((p • a - q • b) ⬝ᵥ (p • a - q • b)) =
      p ^ 2 * (a ⬝ᵥ a * (b ⬝ᵥ b) - (a ⬝ᵥ b) ^ 2) + (p * (a ⬝ᵥ b) - q * (b ⬝ᵥ b)) ^ 2 := by
    simp only [sub_dotProduct, dotProduct_sub, smul_dotProduct, dotProduct_smul, smul_eq_mul]
    rw [dotProduct_comm b a]
    ring
  rw [e1] at h1
  set G := a ⬝ᵥ a * (b ⬝ᵥ b) - (a ⬝ᵥ b) ^ 2 with hG
  have h2 : m * (p ^ 2 * G) ≤ (b ⬝ᵥ b) * (p * (r * p - q ^ 2)) := by
    have h3 := mul_le_mul_of_nonneg_left h1 hbp.le
    have h4 : m * (p ^ 2 * G) ≤ m * ((b ⬝ᵥ b) * ((p • a - q • b) ⬝ᵥ (p • a - q • b))) := by
      rw [e2]
      exact mul_le_mul_of_nonneg_left (by nlinarith [sq_nonneg (p * (a ⬝ᵥ b) - q * (b ⬝ᵥ b))]) hm.le
    linarith
  have h5 : m * (p * G) ≤ (b ⬝ᵥ b) * (r * p - q ^ 2) := by
    have : p * (m * (p * G)) ≤ p * ((b ⬝ᵥ b) * (r * p - q ^ 2)) := by linarith
    exact le_of_mul_le_mul_left this hpp
  have hG0 : 0 ≤ G := by rw [hG]; linarith [cauchy3 a b]
  have h6 : m * (m * (b ⬝ᵥ b) * G) ≤ m * (p * G) :=
    mul_le_mul_of_nonneg_left (mul_le_mul_of_nonneg_right hb1 hG0) hm.le
  have h7 : (b ⬝ᵥ b) * (m ^ 2 * G) ≤ (b ⬝ᵥ b) * (r * p - q ^ 2) := by linarith
  exact le_of_mul_le_mul_left h7 hbp

/-! ### the direction -/

theorem principal_of_sq (hV : IsSPD V) {y : V3} {c : ℝ} (hy : y ≠ 0) (h : (V * V) *ᵥ y = c • y) :
    ∃ d : ℝ, 0 < d ∧ V *ᵥ y = d • y := by
  have hc : 0 < c := by
    have h1 : y ⬝ᵥ (V * V) *ᵥ y = (V *ᵥ y) ⬝ᵥ (V *ᵥ y) := by rw [← mulVec_mulVec, sym_dot hV.1 y]
    rw [h, dotProduct_smul, smul_eq_mul] at h1
    have h2 : V *ᵥ y ≠ 0 := mulVec_ne (spd_det_pos hV).ne' hy
    exact pos_of_mul_pos_left (by rw [h1]; exact self_pos h2) (self_nonneg y)
  refine ⟨Real.sqrt c, Real.sqrt_pos.2 hc, ?_⟩
  by_contra hn
  set w := V *ᵥ y - Real.sqrt c • y with hw
  have hw0 : w ≠ 0 := fun h0 => hn (sub_eq_zero.1 h0)
  have h1 : V *ᵥ w + Real.sqrt c • w = 0 := by
    rw [hw, mulVec_sub, mulVec_smul, mulVec_mulVec, h, smul_sub, smul_smul, Real.mul_self_sqrt hc.le]
    abel
  have h2 := congrArg (w ⬝ᵥ ·) h1
  simp only [dotProduct_add, dotProduct_smul, smul_eq_mul, dotProduct_zero] at h2
  have h3 := hV.2 w hw0
  have h4 := mul_pos (Real.sqrt_pos.2 hc) (self_pos hw0)
  linarith

theorem halfTurn_mulVec (n x : V3) : halfTurn n *ᵥ x = (2 * (n ⬝ᵥ x)) • n - x := by
  rw [halfTurn, sub_mulVec, smul_mulVec, vecMulVec_mulVec, one_mulVec, op_smul_eq_smul, smul_smul]

theorem halfTurn_sym (n : V3) : (halfTurn n)ᵀ = halfTurn n := by
  rw [halfTurn, transpose_sub, transpose_smul, transpose_vecMulVec, transpose_one]

theorem halfTurn_self {n : V3} (hn : n ⬝ᵥ n = 1) : halfTurn n * halfTurn n = 1 := by
  refine Matrix.ext_of_mulVec_single fun i => ?_
  rw [← mulVec_mulVec, halfTurn_mulVec, halfTurn_mulVec, dotProduct_sub, dotProduct_smul, hn, one_mulVec, smul_eq_mul]
  module

/-- a half turn about a principal direction does not change the stretch -/
theorem halfTurn_commute (hV : Vᵀ = V) {n : V3} {d : ℝ} (h : V *ᵥ n = d • n) : halfTurn n * V = V * halfTurn n := by
  refine Matrix.ext_of_mulVec_single fun i => ?_
  rw [← mulVec_mulVec, ← mulVec_mulVec, halfTurn_mulVec, halfTurn_mulVec, mulVec_sub, mulVec_smul, sym_dot hV, h,
    smul_dotProduct, smul_smul, smul_eq_mul]
  module

theorem double_cross (a b c : V3) : a ⨯₃ (b ⨯₃ c) = (a ⬝ᵥ c) • b - (a ⬝ᵥ b) • c := by
  rw [dot3, dot3]
  ext i
  fin_cases i <;> simp [cross_apply] <;> ring

theorem cross_ne (hV : IsSPD V) {n : V3} (hn : IsTwinAxis V W n) (hne : V ≠ W) : crossDirection V n ≠ 0 := by
  intro h0
  have h1 := double_cross n n ((V * V) *ᵥ n)
  rw [show n ⨯₃ ((V * V) *ᵥ n) = 0 from h0, hn.1, one_smul, map_zero] at h1
  have hn0 : n ≠ 0 := fun h => by
    have := hn.1
    rw [h] at this
    simp at this
  obtain ⟨d, -, hd⟩ := principal_of_sq hV hn0 (sub_eq_zero.1 h1.symm).symm
  refine hne (Eq.symm ?_)
  rw [← hn.2, halfTurn_commute hV.1 hd, halfTurn_sym, Matrix.mul_assoc, halfTurn_self hn.1, Matrix.mul_one]

theorem middle_line (hV : IsSPD V) {n x : V3} (hn : IsTwinAxis V W n) (hne : V ≠ W) (hx : (W * W) *ᵥ x = (V * V) *ᵥ x) :
    ∃ c : ℝ, x = c • crossDirection V n := by
  have hy := cross_ne hV hn hne
  have hCs : (V * V)ᵀ = V * V := by rw [transpose_mul, hV.1]
  have hW : W * W = halfTurn n * (V * V) * halfTurn n := by
    rw [← hn.2, halfTurn_sym]
    calc halfTurn n * V * halfTurn n * (halfTurn n * V * halfTurn n)
        = halfTurn n * V * (halfTurn n * halfTurn n) * V * halfTurn n := by simp only [Matrix.mul_assoc]
      _ = _ := by rw [halfTurn_self hn.1, Matrix.mul_one]; simp only [Matrix.mul_assoc]
  set C := V * V with hC
  set w := C *ᵥ n with hw
  have e1 : n ⬝ᵥ C *ᵥ x = w ⬝ᵥ x := by rw [sym_dot hCs]
  have e2 : (2 * (n ⬝ᵥ x) * (2 * (n ⬝ᵥ w)) - 2 * (w ⬝ᵥ x)) • n = (2 * (n ⬝ᵥ x)) • w := by
    rw [hW, ← mulVec_mulVec, ← mulVec_mulVec, halfTurn_mulVec n x, mulVec_sub, mulVec_smul, ← hw, halfTurn_mulVec,
      dotProduct_sub, dotProduct_smul, e1, smul_eq_mul] at hx
    have h1 := sub_eq_zero.2 hx
    rw [← sub_eq_zero, ← h1]
    module
  have e3 : n ⬝ᵥ x = 0 := by
    have h1 := congrArg (n ⨯₃ ·) e2
    simp only [map_smul, cross_self, smul_zero] at h1
    have h2 := (smul_eq_zero.1 h1.symm).resolve_right hy
    linarith
  have e4 : w ⬝ᵥ x = 0 := by
    rw [e3] at e2
    simp only [mul_zero, zero_mul, zero_sub, zero_smul] at e2
    have hn0 : n ≠ 0 := fun h => by
      have := hn.1
      rw [h] at this
      simp at this
    have h2 := (smul_eq_zero.1 e2).resolve_right hn0
    linarith
  set y := crossDirection V n with hyd
  have e5 : x ⨯₃ y = 0 := by
    rw [hyd, crossDirection, ← hC, ← hw, double_cross, dotProduct_comm x, dotProduct_comm x, e3, e4]
    simp
  have e6 := double_cross y x y
  rw [e5, map_zero] at e6
  refine ⟨(y ⬝ᵥ y)⁻¹ * (y ⬝ᵥ x), ?_⟩
  rw [mul_smul, ← sub_eq_zero.1 e6.symm, smul_smul, inv_mul_cancel₀ (self_pos hy).ne', one_smul]

theorem clear_far (h : SmallStretch V) {n : V3} (hn : IsTwinAxis V W n) (hne : V ≠ W)
    (hy : ClearlyNotPrincipal V (crossDirection V n)) (x : V3) (hx : (W * W) *ᵥ x = (V * V) *ᵥ x)
    (hx1 : (V *ᵥ x) ⬝ᵥ (V *ᵥ x) = 1) :
    1 / 10 ^ 14 ≤ ((V * V) *ᵥ x) ⬝ᵥ ((V * V) *ᵥ ((V * V) *ᵥ x)) - (((V * V) *ᵥ x) ⬝ᵥ ((V * V) *ᵥ x)) ^ 2 := by
  have hS := (small_spd h).1
  obtain ⟨c, hc⟩ := middle_line (small_spd h) hn hne hx
  set y := crossDirection V n with hyd
  have h1 := gram_lower (m := 3 / 4) (by norm_num) (small_lower h) x ((V * V) *ᵥ x)
  have h2 := small_upper h x
  rw [hx1] at h1 h2
  have e1 : (V *ᵥ ((V * V) *ᵥ x)) ⬝ᵥ (V *ᵥ ((V * V) *ᵥ x)) = ((V * V) *ᵥ x) ⬝ᵥ ((V * V) *ᵥ ((V * V) *ᵥ x)) := by
    rw [sym_dot hS, dotProduct_comm, mulVec_mulVec _ V V]
  have e2 : (V *ᵥ x) ⬝ᵥ (V *ᵥ ((V * V) *ᵥ x)) = ((V * V) *ᵥ x) ⬝ᵥ ((V * V) *ᵥ x) := by
    rw [sym_dot hS, mulVec_mulVec _ V V]
  rw [e1, e2, one_mul] at h1
  have e3 : (x ⨯₃ ((V * V) *ᵥ x)) ⬝ᵥ (x ⨯₃ ((V * V) *ᵥ x)) = c ^ 4 * ((y ⨯₃ ((V * V) *ᵥ y)) ⬝ᵥ (y ⨯₃ ((V * V) *ᵥ y))) := by
    rw [hc, mulVec_smul]
    simp only [map_smul, LinearMap.smul_apply, smul_dotProduct, dotProduct_smul, smul_eq_mul]
    ring
  have e4 : x ⬝ᵥ x = c ^ 2 * (y ⬝ᵥ y) := by
    rw [hc]
    simp only [smul_dotProduct, dotProduct_smul, smul_eq_mul]
    ring
  rw [e3] at h1
  rw [e4] at h2
  have h3 := mul_le_mul_of_nonneg_left hy (by positivity : (0 : ℝ) ≤ c ^ 4)
  have h4 : (1 / 4 : ℝ) ^ 2 ≤ (c ^ 2 * (y ⬝ᵥ y)) ^ 2 := pow_le_pow_left₀ (by norm_num) (by linarith) 2
  refine le_trans ?_ h1
  have h5 : (1 / 10 ^ 6) ^ 2 * (c ^ 2 * (y ⬝ᵥ y)) ^ 2 ≤ c ^ 4 * ((y ⨯₃ ((V * V) *ᵥ y)) ⬝ᵥ (y ⨯₃ ((V * V) *ᵥ y))) := by
    refine le_trans (le_of_eq ?_) h3
    ring
  norm_num at h4 h5 ⊢
  linarith

/-! ### the second axis of a compound twin -/

theorem principal_axis (hV : Vᵀ = V) {n y : V3} (hn : IsTwinAxis V W n) (hy : y ≠ 0) (hny : n ⬝ᵥ y = 0) (hp : IsPrincipal V y) :
    ∃ m, IsTwinAxis V W m ∧ n ⬝ᵥ m = 0 ∧ m ⬝ᵥ y = 0 := by
  obtain ⟨d, hd⟩ := hp
  have hpos := self_pos hy
  set z : V3 := (Real.sqrt (y ⬝ᵥ y))⁻¹ • y with hz
  have hq : Real.sqrt (y ⬝ᵥ y) * Real.sqrt (y ⬝ᵥ y) = y ⬝ᵥ y := Real.mul_self_sqrt hpos.le
  have hq0 := (Real.sqrt_pos.2 hpos).ne'
  have hz1 : z ⬝ᵥ z = 1 := by
    rw [hz, smul_dotProduct, dotProduct_smul, smul_eq_mul, smul_eq_mul]
    field_simp
    rw [pow_two, hq]
  have hnz : n ⬝ᵥ z = 0 := by rw [hz, dotProduct_smul, hny, smul_zero]
  have hVz : V *ᵥ z = d • z := by rw [hz, mulVec_smul, hd, smul_comm]
  have hf := frame_complete hn.1 hz1 hnz
  have e : halfTurn n * halfTurn z = halfTurn (n ⨯₃ z) := by
    refine Matrix.ext_of_mulVec_single fun i => ?_
    have h1 := congrArg (· *ᵥ (Pi.single i 1 : V3)) hf
    simp only [outer_eq, add_mulVec, sub_mulVec, one_mulVec, vecMulVec_mulVec, op_smul_eq_smul] at h1
    rw [← mulVec_mulVec, halfTurn_mulVec, halfTurn_mulVec, halfTurn_mulVec, dotProduct_sub, dotProduct_smul, hnz, smul_zero]
    have h2 := congrArg ((2 : ℝ) • ·) h1
    simp only [smul_add, smul_sub, smul_smul] at h2
    rw [eq_sub_of_add_eq' h2]
    module
  have hm : (n ⨯₃ z) ⬝ᵥ (n ⨯₃ z) = 1 := by rw [lagrange3, hn.1, hz1, hnz]; norm_num
  refine ⟨n ⨯₃ z, ⟨hm, ?_⟩, by rw [cross_orth], ?_⟩
  · rw [← e, transpose_mul, halfTurn_sym, halfTurn_sym]
    calc halfTurn n * halfTurn z * V * (halfTurn z * halfTurn n)
        = halfTurn n * (halfTurn z * V) * halfTurn z * halfTurn n := by simp only [Matrix.mul_assoc]
      _ = halfTurn n * V * (halfTurn z * halfTurn z) * halfTurn n := by
          rw [halfTurn_commute hV hVz]; simp only [Matrix.mul_assoc]
      _ = W := by rw [halfTurn_self hz1, Matrix.mul_one, ← hn.2, halfTurn_sym]
  · have hyz : y = Real.sqrt (y ⬝ᵥ y) • z := by rw [hz, smul_smul, mul_inv_cancel₀ hq0, one_smul]
    have h0 : (n ⨯₃ z) ⬝ᵥ z = 0 := by
      rw [Lemmas.dot3]
      simp [cross_apply]
      ring
    rw [hyz, dotProduct_smul, h0, smul_zero]

theorem variant_of (h : SmallStretch U) (hc : ClearSymmetry U) {vs : List Mat3}
    (hvs : Mart.getVariants t ⟨some U, cubicR⟩ = .ok vs) (ht : t = .code ∨ t = .exact) (hV : V ∈ vs) (hW : W ∈ vs) :
    Image U V ∧ Image U W ∧ ∃ ws, Mart.getVariants t ⟨some V, cubicR⟩ = .ok ws ∧ W ∈ ws := by
  have hct : ClearFor t U := ht.elim (fun h => .inr ⟨h, hc⟩) .inl
  obtain ⟨lg, vs', idx, -, -, h1, -, -, h3, -⟩ := C107_variants h hct
  rw [hvs] at h1
  cases h1
  have iV := (h3 V).1 hV
  have iW := (h3 W).1 hW
  have hct' : ClearFor t V := ht.elim (fun h => .inr ⟨h, image_clear hc iV⟩) .inl
  obtain ⟨lg, ws, idx, -, -, g1, -, -, g3, -⟩ := C107_variants (image_small h iV) hct'
  refine ⟨iV, iW, ws, g1, (g3 W).2 ?_⟩
  obtain ⟨R, hR, rfl⟩ := iV
  obtain ⟨S, hS, rfl⟩ := iW
  refine ⟨S * Rᵀ, cube_iff.2 (cubeLaue_mul (cube_iff.1 hS) (cubeLaue_transpose (cube_iff.1 hR))), ?_⟩
  rw [realOf_eq, realOf_eq, realOf_eq, toR_mul, toR_transpose, Matrix.transpose_mul, transpose_transpose]
  simp only [Matrix.mul_assoc]
  rw [← Matrix.mul_assoc (toR R)ᵀ (toR R), toR_ortho' (cube_iff.1 hR), Matrix.one_mul,
    ← Matrix.mul_assoc (toR R)ᵀ (toR R), toR_ortho' (cube_iff.1 hR), Matrix.one_mul]

/-- **C113**, twins of type I and II: let a half turn about `n` carry the variant `V` to another one `W`, and let the direction
perpendicular to `n` before and after the stretch be clearly not a principal one.  Then the pair is twinnable and not
compound, and `twinparam()` returns, up to rounding and sign, the twin with the plane normal `n` and the one with the shear
direction `V n`; there is no other. -/
theorem C113_types (eig : Mat3 → EigRes) (heig : ∀ A, Aᵀ = A → EigOK (eig A).vals (eig A).vecs A)
    (h : SmallStretch U) (hc : ClearSymmetry U) {vs : List Mat3} (hvs : Mart.getVariants t ⟨some U, cubicR⟩ = .ok vs)
    (ht : t = .code ∨ t = .exact) (rnd : ℝ → ℝ) (hV : V ∈ vs) (hW : W ∈ vs) (hne : V ≠ W) {n : V3} (hn : IsTwinAxis V W n)
    (hy : ClearlyNotPrincipal V (crossDirection V n)) (skip : Bool) :
    ∃ P, TwinPair.new eig V W skip = .ok P ∧ TypeTwins eig t rnd P V W n := by
  obtain ⟨iV, iW, ws, h1, h2⟩ := variant_of h hc hvs ht hV hW
  exact type_twins eig heig t rnd (image_spd h iV) (image_spd h iW) hn (image_far h hc iV iW hne)
    (clear_far (image_small h iV) hn hne hy) h1 h2 skip

/-- **C113**, compound twins: if that direction is a principal one, then the pair is twinnable and compound, and `twinparam()`
returns, up to rounding and sign, the two twins whose planes have the normals `n` and `m`, where `m` is perpendicular to `n`
and to the direction; there is no other. -/
theorem C113_compound (eig : Mat3 → EigRes) (heig : ∀ A, Aᵀ = A → EigOK (eig A).vals (eig A).vecs A)
    (h : SmallStretch U) (hc : ClearSymmetry U) {vs : List Mat3} (hvs : Mart.getVariants t ⟨some U, cubicR⟩ = .ok vs)
    (ht : t = .code ∨ t = .exact) (rnd : ℝ → ℝ) (hV : V ∈ vs) (hW : W ∈ vs) (hne : V ≠ W) {n : V3} (hn : IsTwinAxis V W n)
    (hy : IsPrincipal V (crossDirection V n)) (skip : Bool) :
    ∃ P m, m ⬝ᵥ m = 1 ∧ n ⬝ᵥ m = 0 ∧ m ⬝ᵥ crossDirection V n = 0 ∧ TwinPair.new eig V W skip = .ok P ∧
      PlaneTwins eig t rnd P V W n m := by
  obtain ⟨iV, iW, ws, h1, h2⟩ := variant_of h hc hvs ht hV hW
  have sV := image_spd h iV
  have hy0 := cross_ne sV hn hne
  have hny : n ⬝ᵥ crossDirection V n = 0 := cross_orth _ _
  obtain ⟨m, hm, hnm, hmy⟩ := principal_axis sV.1 hn hy0 hny hy
  obtain ⟨d, hd⟩ := hy
  have hd0 : d ≠ 0 := by
    rintro rfl
    rw [zero_smul] at hd
    exact mulVec_ne (spd_det_pos sV).ne' hy0 hd
  have hWy : W *ᵥ crossDirection V n = d • crossDirection V n := by
    have e : halfTurn n *ᵥ crossDirection V n = -crossDirection V n := by
      rw [halfTurn_mulVec, hny]
      simp
    rw [← hn.2, halfTurn_sym, ← mulVec_mulVec, ← mulVec_mulVec, e, mulVec_neg, hd, mulVec_neg, mulVec_smul, e]
    simp
  obtain ⟨P, p1, p2⟩ := compound_twins eig heig t rnd sV (image_spd h iW) (axis_related hn) (image_far h hc iV iW hne) hy0 hd0 hd
    hWy h1 h2 skip
  exact ⟨P, m, hm.1, hnm, hmy, p1, compound_planes sV p2 hn hm hnm⟩

/-! ## The hypotheses are met -/

/-- the stretch of Ni-Ti -/
noncomputable def nitiStretch : Mat3 := (1 / 10 ^ 4 : ℝ) • realOf niti

theorem niti_axis (i : Fin 3) : IsTwinAxis nitiStretch (realOf (edgeTurn i) * nitiStretch * (realOf (edgeTurn i))ᵀ) (Pi.single i 1) :=
  ⟨by simp, by rw [edgeTurn_eq, realOf_eq]⟩

theorem niti_entries : nitiStretch = !![0.9563, -0.0427, -0.0427; -0.0427, 1.0243, 0.058; -0.0427, 0.058, 1.0243] := by
  ext i j
  fin_cases i <;> fin_cases j <;> simp [nitiStretch, realOf, niti] <;> norm_num

/-- The half turn about the second cube axis gives type I and II twins of Ni-Ti, that about the first one compound twins. -/
theorem niti_directions : ClearlyNotPrincipal nitiStretch (crossDirection nitiStretch (Pi.single 1 1)) ∧
    IsPrincipal nitiStretch (crossDirection nitiStretch (Pi.single 0 1)) := by
  rw [niti_entries]
  constructor
  · simp [ClearlyNotPrincipal, crossDirection, cross_apply, mulVec, dotProduct, Matrix.mul_apply, Fin.sum_univ_three]
    norm_num
  · refine ⟨0.9663, ?_⟩
    ext i
    fin_cases i <;> simp [crossDirection, cross_apply, mulVec, dotProduct, Matrix.mul_apply, Fin.sum_univ_three] <;> norm_num

/-- Both half turns lead to other variants. -/
theorem niti_pairs : ∃ vs, Mart.getVariants .code ⟨some nitiStretch, cubicR⟩ = .ok vs ∧ nitiStretch ∈ vs ∧ ∀ i,
    realOf (edgeTurn i) * nitiStretch * (realOf (edgeTurn i))ᵀ ∈ vs ∧
      nitiStretch ≠ realOf (edgeTurn i) * nitiStretch * (realOf (edgeTurn i))ᵀ := by
  obtain ⟨lg, vs, idx, -, -, h1, -, -, h3, -⟩ := C107_variants niti_small (.inr ⟨rfl, niti_clear⟩)
  refine ⟨vs, h1, (h3 _).2 ⟨1, cube_iff.2 (by decide +kernel), ?_⟩, fun i => ⟨(h3 _).2 ⟨edgeTurn i, cube_iff.2 ?_, rfl⟩, fun he => ?_⟩⟩
  · rw [realOf_eq 1, toR_one]
    simp [nitiStretch]
  · revert i
    decide +kernel
  · have e1 := congrFun (congrFun he i) (i + 1)
    rw [niti_entries] at e1
    fin_cases i <;> simp [realOf_eq, toR, edgeTurn, Matrix.mul_apply, Fin.sum_univ_three] at e1 <;> norm_num at e1

end Verif.Props
