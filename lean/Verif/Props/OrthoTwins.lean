import Verif.Props.Orthorhombic

/-!
# Twins of cubic to orthorhombic transformations

C104: every pair of the six variants is twinnable, and compound exactly if the two have the same cube axis.
-/

namespace Verif.Props

open Matrix Verif.Model Verif.Spec Verif.Lemmas

local notation "Mat3" => Matrix (Fin 3) (Fin 3) ℝ

variable {α β γ a b c : ℝ} {t : Tol}

/-! ### the tests of `ax()` -/

theorem frame_dot {U V : Mat3} {l : Fin 3 → ℝ} {w : Fin 3 → V3} (h : Frame U V l w) (x : V3) :
    x ⬝ᵥ (U * U) *ᵥ x = (x ⬝ᵥ w 0) ^ 2 + (x ⬝ᵥ w 1) ^ 2 + (x ⬝ᵥ w 2) ^ 2 := by
  rw [h.sqU, Fin.sum_univ_three, add_mulVec, add_mulVec, vecMulVec_mulVec, vecMulVec_mulVec, vecMulVec_mulVec,
    dotProduct_add, dotProduct_add, op_smul_eq_smul, op_smul_eq_smul, op_smul_eq_smul, dotProduct_smul, dotProduct_smul,
    dotProduct_smul, dotProduct_comm (w 0) x, dotProduct_comm (w 1) x, dotProduct_comm (w 2) x]
  simp only [smul_eq_mul]
  ring

/-- If the eigenvector to the eigenvalue one is clearly not an eigenvector of `U`, only one of the tests is passed. -/
theorem far_pair {U V : Mat3} {e : EigRes} (h : Setup U V e)
    (hf : 1 / 10 ^ 14 ≤ (U *ᵥ e.vecs 1) ⬝ᵥ (U * U) *ᵥ (U *ᵥ e.vecs 1) - ((U *ᵥ e.vecs 1) ⬝ᵥ (U *ᵥ e.vecs 1)) ^ 2) :
    Clean ⟨U, V, e⟩ ∧ (TwinPair.mk U V e).isCompound = .ok false ∧ (TwinPair.mk U V e).isTypeI = .ok true := by
  classical
  have hf' := hf
  rw [frame_dot h.frame] at hf'
  have ho := h.orth
  have h2 := h.frame.gt
  have hs : Real.sqrt (e.vals 2) * Real.sqrt (e.vals 2) = e.vals 2 := Real.mul_self_sqrt (by linarith)
  set A0 := (U *ᵥ e.vecs 1) ⬝ᵥ (U *ᵥ e.vecs 0) with hA0
  set A2 := (U *ᵥ e.vecs 1) ⬝ᵥ (U *ᵥ e.vecs 2) with hA2
  have ht : ∀ s, axTest U e s = s * Real.sqrt (e.vals 2) * A2 + A0 := fun s => rfl
  set r := Real.sqrt (e.vals 2)
  have hle : A2 ^ 2 ≤ A0 ^ 2 := by rw [ho]; nlinarith [sq_nonneg A2]
  have hbig : 1 / 10 ^ 15 ≤ A0 ^ 2 := by
    have : 1 / 10 ^ 14 ≤ A0 ^ 2 + A2 ^ 2 := by linarith
    linarith
  have hsm : ∀ s : ℝ, s = -1 ∨ s = 1 → axTest U e (-s) = 0 → ¬ |axTest U e s| < small := by
    intro s hs1 h0 hlt
    rw [ht] at h0 hlt
    have e1 : s * r * A2 + A0 = 2 * A0 := by linarith
    rw [e1] at hlt
    have h3 := abs_lt.1 hlt
    have h4 : A0 ^ 2 < small ^ 2 := by
      rw [sq_lt_sq, abs_of_pos small_pos]
      rw [abs_mul, abs_two] at hlt
      linarith [abs_nonneg A0]
    have : small ^ 2 ≤ 1 / 10 ^ 15 := by norm_num [small]
    linarith
  have hex := test_exists h
  have hone : (axTest U e (-1) = 0 ∧ ¬ |axTest U e 1| < small) ∨ (axTest U e 1 = 0 ∧ ¬ |axTest U e (-1)| < small) := by
    rcases hex with h0 | h0
    · exact .inl ⟨h0, hsm 1 (.inr rfl) h0⟩
    · exact .inr ⟨h0, hsm (-1) (.inl rfl) (by rw [neg_neg]; exact h0)⟩
  have hcl : Clean ⟨U, V, e⟩ := by
    rintro s (rfl | rfl) hlt
    · rcases hone with ⟨h0, -⟩ | ⟨-, h0⟩
      · exact h0
      · exact absurd hlt h0
    · rcases hone with ⟨-, h0⟩ | ⟨h0, -⟩
      · exact absurd hlt h0
      · exact h0
  obtain ⟨r1, x1, hr1, hx1, hp1, ha1⟩ := axis_eval h (s := -1) (by norm_num)
  obtain ⟨r2, x2, hr2, hx2, hp2, ha2⟩ := axis_eval h (s := 1) (by norm_num)
  have hax : (TwinPair.mk U V e).isCompound = .ok false := by
    have : ∃ x, (TwinPair.mk U V e).ax = .ok [x] := by
      unfold TwinPair.ax
      rw [if_neg (by rw [h.twinnable]; simp), ha1, ha2]
      rcases hone with ⟨h0, hn⟩ | ⟨h0, hn⟩
      · rw [h0, abs_zero, if_pos small_pos, if_neg hn]; exact ⟨_, rfl⟩
      · rw [h0, abs_zero, if_pos small_pos, if_neg hn]; exact ⟨_, rfl⟩
    obtain ⟨x, hx⟩ := this
    simp [TwinPair.isCompound, hx]
  refine ⟨hcl, hax, ?_⟩
  simp [TwinPair.isTypeI, hax]

/-- Stretches that commute never make a near miss. -/
theorem commuting_clean {U V : Mat3} {e : EigRes} (h : Setup U V e) (he : EigOK e.vals e.vecs (relMetric U V))
    (hc : U * V = V * U) : Clean ⟨U, V, e⟩ := by
  intro s _ _
  have hU := h.spdU
  have hV := h.spdV
  have hu := isUnit_iff_ne_zero.2 (spd_det_pos hU).ne'
  have hUi : U⁻¹ * V = V * U⁻¹ := by
    calc U⁻¹ * V = U⁻¹ * (V * U) * U⁻¹ := by
          rw [Matrix.mul_assoc U⁻¹, Matrix.mul_assoc V, mul_nonsing_inv _ hu, Matrix.mul_one]
      _ = V * U⁻¹ := by rw [← hc, ← Matrix.mul_assoc, nonsing_inv_mul _ hu, Matrix.one_mul]
  have hM : relMetric U V * (U * U) = V * V := by
    rw [relMetric, hUi]
    calc V * U⁻¹ * (V * U⁻¹) * (U * U) = V * (U⁻¹ * V) * (U⁻¹ * U) * U := by simp only [Matrix.mul_assoc]
      _ = V * V * (U⁻¹ * U) * (U⁻¹ * U) := by
        rw [hUi, nonsing_inv_mul _ hu]
        simp only [Matrix.mul_one, Matrix.mul_assoc]
        rw [nonsing_inv_mul _ hu, Matrix.mul_one]
      _ = V * V := by rw [nonsing_inv_mul _ hu, Matrix.mul_one, Matrix.mul_one]
  have hM' : (U * U) * relMetric U V = V * V := by
    have := congrArg Matrix.transpose hM
    rwa [transpose_mul, transpose_mul, transpose_mul, relMetric_symm hU.1 hV.1, hU.1, hV.1] at this
  have zero : ∀ i j : Fin 3, e.vals i ≠ e.vals j → (U *ᵥ e.vecs i) ⬝ᵥ (U *ᵥ e.vecs j) = 0 := by
    intro i j hij
    have e1 : (U *ᵥ e.vecs i) ⬝ᵥ (U *ᵥ e.vecs j) = e.vecs i ⬝ᵥ (U * U) *ᵥ e.vecs j := by
      rw [← mulVec_mulVec, sym_dot hU.1 (e.vecs i)]
    have e2 : e.vecs i ⬝ᵥ (V * V) *ᵥ e.vecs j = e.vals j * (e.vecs i ⬝ᵥ (U * U) *ᵥ e.vecs j) := by
      rw [← hM', ← mulVec_mulVec, he.eigenvector, mulVec_smul, dotProduct_smul, smul_eq_mul]
    have e3 : e.vecs i ⬝ᵥ (V * V) *ᵥ e.vecs j = e.vals i * (e.vecs i ⬝ᵥ (U * U) *ᵥ e.vecs j) := by
      rw [← hM, ← mulVec_mulVec, sym_dot (relMetric_symm hU.1 hV.1), he.eigenvector, smul_dotProduct, smul_eq_mul]
    rw [e1]
    have : (e.vals i - e.vals j) * (e.vecs i ⬝ᵥ (U * U) *ᵥ e.vecs j) = 0 := by linear_combination e2 - e3
    exact (mul_eq_zero.1 this).resolve_left (sub_ne_zero.2 hij)
  have h1 : e.vals 1 = 1 := h.frame.one
  have h2 : 1 < e.vals 2 := h.frame.gt
  have h0 : e.vals 0 ≠ 1 := by
    intro h0
    have := h.frame.prod
    rw [h0] at this
    linarith
  show axTest U e s = 0
  rw [axTest, zero 1 2 (by rw [h1]; exact h2.ne), zero 1 0 (by rw [h1]; exact h0.symm)]
  ring

/-! ### two stretches with different cube axes -/

/-- the three principal stretches of a block matrix are moderate and clearly different -/
structure Apart (a b c : ℝ) : Prop where
  pl : 4 / 5 ≤ a + b
  pu : a + b ≤ 5 / 4
  ql : 4 / 5 ≤ a - b
  qu : a - b ≤ 5 / 4
  cl : 4 / 5 ≤ c
  cu : c ≤ 5 / 4
  pc : 1 / 100 ≤ |a + b - c|
  qc : 1 / 100 ≤ |a - b - c|
  pq : 1 / 200 ≤ |b|

theorem clearly_apart (h : ClearlyOrthorhombic α β γ) {σ : ℝ} (hσ : σ = 1 ∨ σ = -1) :
    Apart ((α + γ) / 2) (σ * ((α - γ) / 2)) β := by
  obtain ⟨⟨a1, a2⟩, ⟨b1, b2⟩, ⟨c1, c2⟩, h1, h2, h3⟩ := h
  have hs : |σ * ((α - γ) / 2)| = |α - γ| / 2 := by
    rw [abs_mul, abs_div, abs_two]
    rcases hσ with rfl | rfl <;> simp
  rw [abs_sub_comm β γ] at h3
  rcases hσ with rfl | rfl
  · have e1 : (α + γ) / 2 + 1 * ((α - γ) / 2) = α := by ring
    have e2 : (α + γ) / 2 - 1 * ((α - γ) / 2) = γ := by ring
    constructor <;> (try rw [hs]) <;> (try rw [e1]) <;> (try rw [e2]) <;> linarith
  · have e1 : (α + γ) / 2 + -1 * ((α - γ) / 2) = γ := by ring
    have e2 : (α + γ) / 2 - -1 * ((α - γ) / 2) = α := by ring
    constructor <;> (try rw [hs]) <;> (try rw [e1]) <;> (try rw [e2]) <;> linarith

theorem gap_sq {x y : ℝ} (hx : 4 / 5 ≤ x) (hy : 4 / 5 ≤ y) (h : 1 / 100 ≤ |x - y|) : 2 / 125 ≤ |x * x - y * y| := by
  rw [show x * x - y * y = (x - y) * (x + y) by ring, abs_mul, abs_of_pos (show 0 < x + y by linarith)]
  nlinarith [abs_nonneg (x - y)]

theorem cross_le {v z : V3} (hv : v ⬝ᵥ v = 1) {i j k : Fin 3} (hs : ∀ f : Fin 3 → ℝ, ∑ l, f l = f i + f j + f k) :
    (v j * z k - v k * z j) ^ 2 ≤ z ⬝ᵥ z - (v ⬝ᵥ z) ^ 2 := by
  rw [dotProduct, hs] at hv
  rw [dotProduct, hs, dotProduct, hs]
  have e : z i * z i + z j * z j + z k * z k - (v i * z i + v j * z j + v k * z k) ^ 2 =
      (v j * z k - v k * z j) ^ 2 + (v i * z k - v k * z i) ^ 2 + (v i * z j - v j * z i) ^ 2 +
      (1 - (v i * v i + v j * v j + v k * v k)) * (z i * z i + z j * z j + z k * z k) := by ring
  rw [e, hv]
  nlinarith [sq_nonneg (v i * z k - v k * z i), sq_nonneg (v i * z j - v j * z i)]

theorem sq_between {x : ℝ} (h1 : 4 / 5 ≤ x) (h2 : x ≤ 5 / 4) : 16 / 25 ≤ x * x ∧ x * x ≤ 25 / 16 := by
  constructor <;> nlinarith

theorem apart_low {p q c B : ℝ} (pl : 4 / 5 ≤ p) (ql : 4 / 5 ≤ q) (gp : 2 / 125 ≤ |p * p - c * c|)
    (gq : 2 / 125 ≤ |q * q - c * c|) (hB : 1 / 125 ≤ |B|) :
    1 / 10 ^ 6 ≤ |p * q * -((p * p - c * c) * (q * q - c * c)) * B| := by
  have h1 : (16 : ℝ) / 25 ≤ p * q := by nlinarith
  rw [abs_mul, abs_mul, abs_neg, abs_mul (p * p - c * c), abs_of_pos (lt_of_lt_of_le (by norm_num) h1)]
  have h2 : (2 : ℝ) / 125 * (2 / 125) ≤ |p * p - c * c| * |q * q - c * c| :=
    mul_le_mul gp gq (by norm_num) (abs_nonneg _)
  have h3 : (16 : ℝ) / 25 * (2 / 125 * (2 / 125)) ≤ p * q * (|p * p - c * c| * |q * q - c * c|) :=
    mul_le_mul h1 h2 (by norm_num) (le_trans (by norm_num) h1)
  have h4 := mul_le_mul h3 hB (by norm_num) (le_trans (by norm_num) h3)
  exact le_trans (by norm_num) h4

theorem apart_high {P Q C B D : ℝ} (hP : 16 / 25 ≤ P ∧ P ≤ 25 / 16) (hQ : 16 / 25 ≤ Q ∧ Q ≤ 25 / 16)
    (hC : 16 / 25 ≤ C ∧ C ≤ 25 / 16) (hB : B = (P - Q) / 2) (hD : D = C - (P + Q) / 2) :
    0 ≤ C * (B * B) + (P * (B + D) ^ 2 + Q * (B - D) ^ 2) / 2 ∧
      C * (B * B) + (P * (B + D) ^ 2 + Q * (B - D) ^ 2) / 2 ≤ 10 := by
  have hB1 : B * B ≤ 1 / 2 := by
    have h1 : |B| ≤ 1 / 2 := by rw [hB, abs_le]; constructor <;> linarith
    rw [← abs_mul_abs_self]; nlinarith [abs_nonneg B]
  have hD1 : D * D ≤ 1 := by
    have h1 : |D| ≤ 1 := by rw [hD, abs_le]; constructor <;> linarith
    rw [← abs_mul_abs_self]; nlinarith [abs_nonneg D]
  have hC0 : 0 ≤ C := by linarith
  have hP0 : 0 ≤ P := by linarith
  have hQ0 : 0 ≤ Q := by linarith
  clear hB hD
  constructor
  · have := mul_self_nonneg B
    positivity
  · have h1 : C * (B * B) ≤ 25 / 16 * (1 / 2) := mul_le_mul hC.2 hB1 (mul_self_nonneg B) (by norm_num)
    have h2 := mul_le_mul_of_nonneg_right hP.2 (sq_nonneg (B + D))
    have h3 := mul_le_mul_of_nonneg_right hQ.2 (sq_nonneg (B - D))
    have h4 : (B + D) ^ 2 + (B - D) ^ 2 ≤ 3 := by
      have : (B + D) ^ 2 + (B - D) ^ 2 = 2 * (B * B) + 2 * (D * D) := by ring
      rw [this]; linarith
    linarith

theorem ortho_scalar (h : Apart a b c) {X Y Z : ℝ} (hxk : Z * Z = X * X)
    (r2 : c * c * X = (a * a + b * b) * X + (a * b + b * a) * Y)
    (hu : c * Z * (c * Z) + (a * X + b * Y) * (a * X + b * Y) + (b * X + a * Y) * (b * X + a * Y) = 1) :
    1 / 10 ^ 14 ≤ ((a * X + b * Y) * ((a * b + b * a) * (a * X + b * Y) + (a * a + b * b) * (b * X + a * Y)) -
      (b * X + a * Y) * ((a * a + b * b) * (a * X + b * Y) + (a * b + b * a) * (b * X + a * Y))) ^ 2 := by
  obtain ⟨pl, pu, ql, qu, cl, cu, pc, qc, pq⟩ := h
  have ha : 4 / 5 ≤ a := by linarith
  obtain ⟨B, hB⟩ : ∃ B, B = 2 * a * b := ⟨_, rfl⟩
  obtain ⟨D, hD⟩ : ∃ D, D = c * c - (a * a + b * b) := ⟨_, rfl⟩
  have hBY : B * Y = D * X := by rw [hB, hD]; linarith
  have hBa : 1 / 125 ≤ |B| := by
    rw [hB, abs_mul, abs_mul, abs_two, abs_of_pos (by linarith)]
    nlinarith
  have hB0 : B ≠ 0 := by intro h; rw [h, abs_zero] at hBa; norm_num at hBa
  obtain ⟨E, hE⟩ : ∃ E, E = (a * X + b * Y) * ((a * b + b * a) * (a * X + b * Y) + (a * a + b * b) * (b * X + a * Y)) -
    (b * X + a * Y) * ((a * a + b * b) * (a * X + b * Y) + (a * b + b * a) * (b * X + a * Y)) := ⟨_, rfl⟩
  rw [← hE]
  obtain ⟨hK0, hK1⟩ := apart_high (sq_between pl pu) (sq_between ql qu) (sq_between cl cu)
    (show B = ((a + b) * (a + b) - (a - b) * (a - b)) / 2 by rw [hB]; ring)
    (show D = c * c - ((a + b) * (a + b) + (a - b) * (a - b)) / 2 by rw [hD]; ring)
  obtain ⟨K, hK⟩ : ∃ K, K = c * c * (B * B) + ((a + b) * (a + b) * (B + D) ^ 2 + (a - b) * (a - b) * (B - D) ^ 2) / 2 := ⟨_, rfl⟩
  rw [← hK] at hK0 hK1
  have hKX : B * B = X * X * K := by
    have h1 : B * B * (c * Z * (c * Z) + (a * X + b * Y) * (a * X + b * Y) + (b * X + a * Y) * (b * X + a * Y)) =
        c * c * B * B * (Z * Z) + (a * (B * X) + b * (B * Y)) ^ 2 + (b * (B * X) + a * (B * Y)) ^ 2 := by ring
    rw [hu, mul_one, hBY, hxk] at h1
    rw [h1, hK]; ring
  have hBE : B * E = (a * a - b * b) * (B * B - D * D) * (X * X) := by
    have h1 : B * E = (a * a - b * b) * ((B * X) * (B * X) - (B * Y) * (B * Y)) := by rw [hE, hB]; ring
    rw [h1, hBY]; ring
  have hKE : K * E = (a * a - b * b) * (B * B - D * D) * B := by
    apply mul_left_cancel₀ hB0
    linear_combination K * hBE - (a * a - b * b) * (B * B - D * D) * hKX
  have hlow := apart_low (c := c) pl ql (gap_sq pl cl pc) (gap_sq ql cl qc) hBa
  have hDB : (a + b) * (a - b) * -(((a + b) * (a + b) - c * c) * ((a - b) * (a - b) - c * c)) * B = K * E := by
    rw [hKE, hD, hB]; ring
  rw [hDB, abs_mul, abs_of_nonneg hK0] at hlow
  have hE1 : 1 / 10 ^ 7 ≤ |E| := by
    have := mul_le_mul_of_nonneg_right hK1 (abs_nonneg E)
    linarith
  rw [← sq_abs]
  have := pow_le_pow_left₀ (by norm_num) hE1 2
  refine le_trans (by norm_num) this

/-- A vector that two stretches with different axes stretch equally is clearly not a principal direction. -/
theorem ortho_far (h : Apart a b c) {y : ℝ} (hy : y = b ∨ y = -b) {k k' : Fin 3} (hk : k ≠ k') {x : V3}
    (hx : (om k' a y c * om k' a y c) *ᵥ x = (om k a b c * om k a b c) *ᵥ x)
    (hu : (om k a b c *ᵥ x) ⬝ᵥ (om k a b c *ᵥ x) = 1) :
    1 / 10 ^ 14 ≤ ((om k a b c * om k a b c) *ᵥ (om k a b c *ᵥ x)) ⬝ᵥ ((om k a b c * om k a b c) *ᵥ (om k a b c *ᵥ x)) -
      ((om k a b c *ᵥ x) ⬝ᵥ ((om k a b c * om k a b c) *ᵥ (om k a b c *ᵥ x))) ^ 2 := by
  obtain ⟨m, hm1, hm2, hall, hs⟩ := third k k' hk
  refine le_trans ?_ (cross_le hu hs)
  rw [om_mul, om_mul] at hx
  rw [om_mul]
  have ent : ∀ (l : Fin 3) (A B C : ℝ) (v : V3), l = k → (om k A B C *ᵥ v) k = C * v k ∧
      (om k A B C *ᵥ v) k' = A * v k' + B * v m ∧ (om k A B C *ᵥ v) m = B * v k' + A * v m := by
    intro l A B C v _
    refine ⟨?_, ?_, ?_⟩ <;> rw [mulVec, dotProduct, hs] <;> simp [om, hk.symm, hm1, hm2, hm2.symm]
  have ent' : ∀ (A B C : ℝ) (v : V3), (om k' A B C *ᵥ v) k' = C * v k' ∧ (om k' A B C *ᵥ v) k = A * v k + B * v m ∧
      (om k' A B C *ᵥ v) m = B * v k + A * v m := by
    intro A B C v
    refine ⟨?_, ?_, ?_⟩ <;> rw [mulVec, dotProduct, hs] <;> simp [om, hk, hm1, hm1.symm, hm2]
  have r1 := congrFun hx m
  have r2 := congrFun hx k'
  rw [(ent' _ _ _ _).2.2, (ent k _ _ _ _ rfl).2.2] at r1
  rw [(ent' _ _ _ _).1, (ent k _ _ _ _ rfl).2.1] at r2
  rw [dotProduct, hs, (ent k _ _ _ _ rfl).1, (ent k _ _ _ _ rfl).2.1, (ent k _ _ _ _ rfl).2.2] at hu
  rw [(ent k _ _ _ (om k a b c *ᵥ x) rfl).2.1, (ent k _ _ _ (om k a b c *ᵥ x) rfl).2.2, (ent k _ _ _ x rfl).2.1,
    (ent k _ _ _ x rfl).2.2]
  clear ent ent' hx hs hall
  have hb0 : b ≠ 0 := by
    rintro rfl
    have := h.pq
    norm_num at this
  have ha : a ≠ 0 := by
    rintro rfl
    have := h.pl
    have := h.ql
    linarith
  refine ortho_scalar h ?_ r2 hu
  have hyy : y * y = b * b := by rcases hy with rfl | rfl <;> ring
  have h2 : a * (y * x k - b * x k') = 0 := by rw [hyy] at r1; linarith
  have h3 := (mul_eq_zero.1 h2).resolve_left ha
  rcases hy with rfl | rfl
  · have : y * (x k - x k') = 0 := by linarith
    have := (mul_eq_zero.1 this).resolve_left hb0
    rw [sub_eq_zero.1 this]
  · have : b * (x k + x k') = 0 := by linarith
    have := (mul_eq_zero.1 this).resolve_left hb0
    rw [eq_neg_of_add_eq_zero_left this]; ring

/-! ### the half turns -/

/-- the half turn about `eₖ + s eₖ'` -/
def faceTurn (k k' : Fin 3) (s : ℤ) : Matrix (Fin 3) (Fin 3) ℤ :=
  Matrix.of fun i j => if i = k ∧ j = k' ∨ i = k' ∧ j = k then s else if i = j ∧ i ≠ k ∧ i ≠ k' then -1 else 0

/-- the half turn about `eᵢ` -/
def edgeTurn (i : Fin 3) : Matrix (Fin 3) (Fin 3) ℤ :=
  Matrix.of fun p q => if p = q then (if p = i then 1 else -1) else 0

theorem faceTurn_ok : ∀ k k' : Fin 3, k ≠ k' → ∀ s ∈ [(1 : ℤ), -1], faceTurn k k' s * (faceTurn k k' s)ᵀ = 1 ∧
    faceTurn k k' s * unitAt k * (faceTurn k k' s)ᵀ = unitAt k' ∧
    faceTurn k k' s * swapAt k * (faceTurn k k' s)ᵀ = (-s) • swapAt k' := by
  decide +kernel

theorem edgeTurn_ok : ∀ k i : Fin 3, i ≠ k → edgeTurn i * (edgeTurn i)ᵀ = 1 ∧
    edgeTurn i * unitAt k * (edgeTurn i)ᵀ = unitAt k ∧
    edgeTurn i * swapAt k * (edgeTurn i)ᵀ = (-1 : ℤ) • swapAt k := by
  decide +kernel

theorem faceTurn_eq {k k' : Fin 3} (hk : k ≠ k') {s : ℤ} (hs : s * s = 1) :
    halfTurn (diagonalNormal k k' s) = toR (faceTurn k k' s) := by
  have hss : (s : ℝ) * s = 1 := by exact_mod_cast hs
  have h0 : Real.sqrt 2 ≠ 0 := by positivity
  have key : ∀ x y : ℝ, 2 * (x / Real.sqrt 2 * (y / Real.sqrt 2)) = x * y := by
    intro x y
    field_simp
    rw [pow_two, root_two]
    ring
  ext i j
  simp only [halfTurn, Matrix.sub_apply, Matrix.smul_apply, vecMulVec_apply, smul_eq_mul, diagonalNormal, key, toR,
    Matrix.map_apply, faceTurn, Matrix.of_apply, Matrix.one_apply]
  obtain ⟨m, hm1, hm2, hall, -⟩ := third k k' hk
  rcases hall i with rfl | rfl | rfl <;> rcases hall j with rfl | rfl | rfl <;>
    simp [hk, hk.symm, hm1, hm1.symm, hm2, hm2.symm, hss]

theorem edgeTurn_eq (i : Fin 3) : halfTurn (Pi.single i 1) = toR (edgeTurn i) := by
  ext p q
  simp only [halfTurn, Matrix.sub_apply, Matrix.smul_apply, vecMulVec_apply, smul_eq_mul, Pi.single_apply, toR,
    Matrix.map_apply, edgeTurn, Matrix.of_apply, Matrix.one_apply]
  by_cases hpq : p = q
  · subst hpq
    by_cases h : p = i <;> simp [h]
    norm_num
  · by_cases h : p = i
    · have : q ≠ i := fun h' => hpq (h.trans h'.symm)
      simp [this, hpq]
    · simp [h, hpq]

theorem face_axis {k k' : Fin 3} (hk : k ≠ k') {s : ℤ} (hs : s = 1 ∨ s = -1) :
    IsTwinAxis (om k a b c) (om k' a (-s * b) c) (diagonalNormal k k' s) := by
  have hss : s * s = 1 := by rcases hs with rfl | rfl <;> rfl
  obtain ⟨h1, h2, h3⟩ := faceTurn_ok k k' hk s (by simpa using hs)
  refine ⟨diagonalNormal_unit hk (by exact_mod_cast hss), ?_⟩
  rw [faceTurn_eq hk hss, om_turn h1 h2 h3]
  push_cast
  rfl

theorem face_axis_real {k k' : Fin 3} (hk : k ≠ k') {s y : ℝ} (hs : s = 1 ∨ s = -1) (hy : y = -s * b) :
    IsTwinAxis (om k a b c) (om k' a y c) (diagonalNormal k k' s) := by
  subst hy
  rcases hs with rfl | rfl
  · simpa using face_axis (a := a) (b := b) (c := c) hk (s := 1) (.inl rfl)
  · simpa using face_axis (a := a) (b := b) (c := c) hk (s := -1) (.inr rfl)

theorem edge_axis {k i : Fin 3} (hi : i ≠ k) : IsTwinAxis (om k a b c) (om k a (-b) c) (Pi.single i 1) := by
  obtain ⟨h1, h2, h3⟩ := edgeTurn_ok k i hi
  refine ⟨by simp, ?_⟩
  rw [edgeTurn_eq, om_turn h1 h2 h3]
  push_cast
  rw [neg_one_mul]

theorem axis_related {U V : Mat3} {e : V3} (h : IsTwinAxis U V e) : Related U V :=
  ⟨_, halfTurn_rotation h.1, h.2.symm⟩

theorem axis_connected {U V : Mat3} {e : V3} (hU : IsSPD U) (h : IsTwinAxis U V e) : RankOneConnected U V := by
  obtain ⟨Q, hQ⟩ := axis_solves hU h
  exact ⟨Q, _, _, hQ.rotation, hQ.equation⟩

theorem om_far_apart (h : Wide a b c) {k k' : Fin 3} {y : ℝ} (hy : |y| = |b|) (hne : om k a b c ≠ om k' a y c) :
    ∃ i j, 1 / 10 ^ 12 ≤ |om k a b c i j - om k' a y c i j| := by
  obtain ⟨i, j, h1, h2⟩ := om_differ rfl hy hne
  refine ⟨i, j, ?_⟩
  have hb := h.big
  rw [h1]
  rcases h2 with h2 | h2 <;> rw [h2]
  · rw [sub_zero]; refine le_trans (by norm_num) hb
  · rw [sub_neg_eq_add, ← two_mul, abs_mul, abs_two]
    linarith

/-- As `twinParam_axis`, with the axis: it is the first normal, and `U` takes it to the second shear. -/
theorem twinParam_detail (eig : Mat3 → EigRes) (heig : ∀ A, Aᵀ = A → EigOK (eig A).vals (eig A).vecs A) (t : Tol)
    (rnd : ℝ → ℝ) {U V : Mat3} (hU : IsSPD U) (hV : IsSPD V) (hrel : Related U V)
    (hd : ∃ i j, 1 / 10 ^ 12 ≤ |U i j - V i j|) (hc : RankOneConnected U V)
    {vs : List M3} (hvs : Mart.getVariants t ⟨some U, cubicR⟩ = .ok vs) (hmem : V ∈ vs) {skip : Bool} {p : TwinPair}
    (hp : TwinPair.new eig U V skip = .ok p) (hcl : Clean p) :
    ∃ Q₁ a₁ e Q₂ n₂, ∃ ρ : ℝ, p.twinParam eig t rnd false = .ok (some
        (some ((U + outer (fun l => rnd (a₁ l)) fun l => rnd (e l)) * V⁻¹, (fun l => rnd (a₁ l)), fun l => rnd (e l)),
         some ((U + outer (fun l => rnd ((ρ • U *ᵥ e) l)) fun l => rnd (n₂ l)) * V⁻¹,
           (fun l => rnd ((ρ • U *ᵥ e) l)), fun l => rnd (n₂ l)))) ∧
      SolvesTwin U V Q₁ a₁ e ∧ SolvesTwin U V Q₂ (ρ • U *ᵥ e) n₂ ∧ e ⬝ᵥ n₂ = 0 ∧ IsTwinAxis U V e := by
  classical
  obtain ⟨p', l, hp', hl, hne, -, hax⟩ := C69_axes eig heig U V hU hV hrel hd hc skip
  cases hp.symm.trans hp'
  have hUV := differ_ne hd
  cases l with
  | nil => exact absurd rfl hne
  | cons x xs =>
    obtain ⟨e, rfl, he⟩ := hax hcl x (by simp)
    obtain ⟨⟨Q₁, a₁, n₁⟩, hx, hx'⟩ := first_solution hU (spd_det_pos hV).ne' he id
    obtain ⟨⟨Q₂, a₂, n₂⟩, hy, hy'⟩ := second_solution hU hV hUV he id
    have hn1 : n₁ = e := by
      unfold twinSol1 at hx
      simp only [id] at hx
      split_ifs at hx
      cases hx
      rw [vnorm_unit he.1]
      simp
    have ha2 : ∃ ρ : ℝ, a₂ = ρ • U *ᵥ e := by
      unfold twinSol2 at hy
      simp only [id] at hy
      split_ifs at hy
      cases hy
      exact ⟨_, rfl⟩
    obtain ⟨ρ, rfl⟩ := ha2
    subst hn1
    obtain ⟨x, y, h1, -, -⟩ := solveTwin_axis eig t rnd hU hV hUV hvs hmem he
    have hpar : p.twinParam eig t rnd false = .ok (some (some x, some y)) := by
      rw [new_ok eig hU hV] at hp
      cases hp
      unfold TwinPair.twinParam
      rw [if_neg (by rw [(setup eig heig hU hV hrel hd hc).twinnable]; simp), hl]
      simpa using h1
    have hunit : unitVec n₁ = some n₁ := unitVec_of_isDirection ⟨he.1, 1, one_pos, (one_smul _ _).symm⟩
    refine ⟨Q₁, a₁, n₁, Q₂, n₂, ρ, ?_, roundedTwin_id hV hx', roundedTwin_id hV hy', sols_orth hU he.1 hx hy, he⟩
    rw [hpar]
    unfold solveTwin at h1
    simp only [Option.bind_some, hunit, Option.map_some, r180_eq, he.2] at h1
    rw [if_neg (by simp), if_neg (spd_det_pos hU).ne', if_neg (spd_det_pos hV).ne', twinSol1_rnd, twinSol2_rnd, hx,
      hy] at h1
    revert h1
    cases isVariant t U (some V) with
    | error _ => simp
    | ok b =>
      cases b
      · simp
      · intro h
        exact h.symm

/-- **C104**, two variants with different cube axes `k` and `k'`: they are twinnable and not compound.  `twinparam()`
returns, up to rounding, a twin of type I, whose plane has the normal `eₖ - σσ' eₖ'`, and a twin of type II, whose shear is
the image of that vector; every solution of the twinning equation is one of these, up to the sign of shear and normal. -/
theorem C104_different_axes (eig : Mat3 → EigRes) (heig : ∀ A, Aᵀ = A → EigOK (eig A).vals (eig A).vecs A)
    (ht : t = .code ∨ t = .exact) (rnd : ℝ → ℝ) (h : ClearlyOrthorhombic α β γ) {k k' : Fin 3} (hk : k ≠ k')
    {σ σ' : ℝ} (hσ : σ = 1 ∨ σ = -1) (hσ' : σ' = 1 ∨ σ' = -1) (skip : Bool) :
    ∃ p Q₁ a₁ Q₂ n₂ R₁ R₂, ∃ τ ρ : ℝ,
      TwinPair.new eig (orthoStretch α β γ k σ) (orthoStretch α β γ k' σ') skip = .ok p ∧
      p.isTwinnable = true ∧ p.isCompound = .ok false ∧ p.isTypeI = .ok true ∧ (τ = 1 ∨ τ = -1) ∧
      p.twinParam eig t rnd false = .ok (some
        (some (R₁, (fun l => rnd (a₁ l)), fun l => rnd (τ * diagonalNormal k k' (-(σ * σ')) l)),
         some (R₂, (fun l => rnd (ρ * (orthoStretch α β γ k σ *ᵥ diagonalNormal k k' (-(σ * σ'))) l)),
           fun l => rnd (n₂ l)))) ∧
      R₁ * orthoStretch α β γ k' σ' - orthoStretch α β γ k σ =
        vecMulVec (fun l => rnd (a₁ l)) (fun l => rnd (τ * diagonalNormal k k' (-(σ * σ')) l)) ∧
      R₂ * orthoStretch α β γ k' σ' - orthoStretch α β γ k σ =
        vecMulVec (fun l => rnd (ρ * (orthoStretch α β γ k σ *ᵥ diagonalNormal k k' (-(σ * σ'))) l)) (fun l => rnd (n₂ l)) ∧
      SolvesTwin (orthoStretch α β γ k σ) (orthoStretch α β γ k' σ') Q₁ a₁ (τ • diagonalNormal k k' (-(σ * σ'))) ∧
      SolvesTwin (orthoStretch α β γ k σ) (orthoStretch α β γ k' σ') Q₂
        (ρ • orthoStretch α β γ k σ *ᵥ diagonalNormal k k' (-(σ * σ'))) n₂ ∧
      ∀ Q a n, SolvesTwin (orthoStretch α β γ k σ) (orthoStretch α β γ k' σ') Q a n →
        (Q = Q₁ ∧ SameUpToSign a₁ (τ • diagonalNormal k k' (-(σ * σ'))) a n) ∨
        (Q = Q₂ ∧ SameUpToSign (ρ • orthoStretch α β γ k σ *ᵥ diagonalNormal k k' (-(σ * σ'))) n₂ a n) := by
  have hw := clearly_wide h hσ
  have hw' := clearly_wide h hσ'
  have hap := clearly_apart h hσ
  have hU : IsSPD (orthoStretch α β γ k σ) := hw.spd k
  have hV : IsSPD (orthoStretch α β γ k' σ') := hw'.spd k'
  have hax : IsTwinAxis (orthoStretch α β γ k σ) (orthoStretch α β γ k' σ') (diagonalNormal k k' (-(σ * σ'))) := by
    have hss : σ * σ = 1 := by rcases hσ with rfl | rfl <;> norm_num
    refine face_axis_real hk ?_ ?_
    · rcases hσ with rfl | rfl <;> rcases hσ' with rfl | rfl <;> norm_num
    · linear_combination (-(σ' * ((α - γ) / 2))) * hss
  have hb0 : σ * ((α - γ) / 2) ≠ 0 := by
    intro h0
    have := hw.big
    rw [h0] at this
    norm_num at this
  have hne : orthoStretch α β γ k σ ≠ orthoStretch α β γ k' σ' := by
    intro he
    exact hk (om_inj hb0 rfl he).1
  have hy : σ' * ((α - γ) / 2) = σ * ((α - γ) / 2) ∨ σ' * ((α - γ) / 2) = -(σ * ((α - γ) / 2)) := by
    rcases hσ with rfl | rfl <;> rcases hσ' with rfl | rfl
    · exact .inl rfl
    · exact .inr (by ring)
    · exact .inr (by ring)
    · exact .inl rfl
  have hd := om_far_apart hw (y := σ' * ((α - γ) / 2)) (abs_eq_abs.2 hy) hne
  have hrel := axis_related hax
  have hc := axis_connected hU hax
  have hS := setup eig heig hU hV hrel hd hc
  obtain ⟨he, -⟩ := sortEig_spec (heig _ (relMetric_symm hU.1 hV.1))
  have hu := isUnit_iff_ne_zero.2 (spd_det_pos hU).ne'
  set e := sortEig eig (relMetric (orthoStretch α β γ k σ) (orthoStretch α β γ k' σ')) with hedef
  have hv := he.eigenvector 1
  rw [hS.frame.one, one_smul] at hv
  -- the vector that both stretch equally
  have hx : orthoStretch α β γ k σ *ᵥ ((orthoStretch α β γ k σ)⁻¹ *ᵥ e.vecs 1) = e.vecs 1 := by
    rw [mulVec_mulVec, mul_nonsing_inv _ hu, one_mulVec]
  have hVV : (orthoStretch α β γ k' σ' * orthoStretch α β γ k' σ') *ᵥ ((orthoStretch α β γ k σ)⁻¹ *ᵥ e.vecs 1) =
      (orthoStretch α β γ k σ * orthoStretch α β γ k σ) *ᵥ ((orthoStretch α β γ k σ)⁻¹ *ᵥ e.vecs 1) := by
    have h1 := congrArg (orthoStretch α β γ k σ *ᵥ ·) hv
    simp only [relMetric, mulVec_mulVec] at h1
    rw [← mulVec_mulVec _ (orthoStretch α β γ k σ) (orthoStretch α β γ k σ), hx, mulVec_mulVec, ← h1]
    congr 1
    simp only [← Matrix.mul_assoc]
    rw [mul_nonsing_inv _ hu, Matrix.one_mul]
  have hfar := ortho_far hap hy hk hVV (by rw [← ortho_om, hx]; exact he.unit 1)
  rw [← ortho_om, hx] at hfar
  obtain ⟨hcl, hcomp, hty⟩ := far_pair hS (by
    have e1 : ∀ v : V3, (orthoStretch α β γ k σ *ᵥ v) ⬝ᵥ (orthoStretch α β γ k σ * orthoStretch α β γ k σ) *ᵥ (orthoStretch α β γ k σ *ᵥ v) =
        ((orthoStretch α β γ k σ * orthoStretch α β γ k σ) *ᵥ v) ⬝ᵥ ((orthoStretch α β γ k σ * orthoStretch α β γ k σ) *ᵥ v) := by
      intro v
      rw [← mulVec_mulVec, ← mulVec_mulVec, sym_dot hU.1 (orthoStretch α β γ k σ *ᵥ v)]
    have e2 : ∀ v : V3, (orthoStretch α β γ k σ *ᵥ v) ⬝ᵥ (orthoStretch α β γ k σ *ᵥ v) =
        v ⬝ᵥ ((orthoStretch α β γ k σ * orthoStretch α β γ k σ) *ᵥ v) := by
      intro v
      rw [← mulVec_mulVec, sym_dot hU.1 v]
    rw [e1, e2]
    exact hfar)
  obtain ⟨vs, hvs, -, -, -, hmem⟩ := C104_variants ht h k hσ
  obtain ⟨Q₁, a₁, x, Q₂, n₂, ρ, hpar, h1, h2, ho, hxa⟩ := twinParam_detail eig heig t rnd hU hV hrel hd hc hvs
    ((hmem _).2 ⟨k', σ', hσ', rfl⟩) (new_ok eig hU hV skip) hcl
  have hpm : x = diagonalNormal k k' (-(σ * σ')) ∨ x = -diagonalNormal k k' (-(σ * σ')) := by
    obtain ⟨q, hq, hc'⟩ := C69_compound eig heig _ _ hU hV hrel hd hc skip
    rw [new_ok eig hU hV] at hq
    cases hq
    obtain ⟨bb, hb1, -, hb3⟩ := hc' hcl
    rw [hcomp] at hb1
    cases hb1
    by_contra hcon
    push Not at hcon
    exact Bool.false_ne_true (hb3.2 ⟨_, _, hax, hxa, hcon.1, hcon.2⟩)
  obtain ⟨τ, hτ, rfl⟩ : ∃ τ : ℝ, (τ = 1 ∨ τ = -1) ∧ x = τ • diagonalNormal k k' (-(σ * σ')) := by
    rcases hpm with h | h
    · exact ⟨1, .inl rfl, by rw [h, one_smul]⟩
    · exact ⟨-1, .inr rfl, by rw [h, neg_one_smul]⟩
  have hall := fun Q a n hs => twins_all hU hV hne hrel h1 h2 ho (Q := Q) (a := a) (n := n) hs
  rw [mulVec_smul, smul_smul] at hpar h2 hall
  have huV := isUnit_iff_ne_zero.2 (spd_det_pos hV).ne'
  have hR : ∀ a n : V3, (orthoStretch α β γ k σ + outer a n) * (orthoStretch α β γ k' σ')⁻¹ * orthoStretch α β γ k' σ' -
      orthoStretch α β γ k σ = vecMulVec a n := fun a n => by
    rw [Matrix.mul_assoc, nonsing_inv_mul _ huV, Matrix.mul_one, outer_eq, add_sub_cancel_left]
  exact ⟨_, Q₁, a₁, Q₂, n₂, _, _, τ, ρ * τ, new_ok eig hU hV skip, hS.twinnable, hcomp, hty, hτ, hpar, hR _ _, hR _ _, h1, h2, hall⟩

theorem third_unique : ∀ i j k m : Fin 3, i ≠ j → i ≠ k → j ≠ k → m ≠ i → m ≠ j → m = k := by
  intro i j k m
  simp only [ne_eq, Fin.ext_iff]
  omega

theorem two_others : ∀ k : Fin 3, ∃ i j : Fin 3, i ≠ j ∧ i ≠ k ∧ j ≠ k := by decide

theorem same_face_shear {i j k : Fin 3} (hij : i ≠ j) (hi : i ≠ k) (hj : j ≠ k) (hα : 0 < α) (hγ : 0 < γ) (hβ : 0 < β)
    {σ : ℝ} (hσ : σ * σ = 1) :
    (2 : ℝ) • ((((orthoStretch α β γ k σ)⁻¹ *ᵥ Pi.single i 1) ⬝ᵥ ((orthoStretch α β γ k σ)⁻¹ *ᵥ Pi.single i 1))⁻¹ •
      (orthoStretch α β γ k σ)⁻¹ *ᵥ Pi.single i 1 - orthoStretch α β γ k σ *ᵥ Pi.single i 1) = faceShear α γ i j σ := by
  have hD : (α + γ) / 2 * ((α + γ) / 2) - σ * ((α - γ) / 2) * (σ * ((α - γ) / 2)) = α * γ := by
    linear_combination (-((α - γ) ^ 2 / 4)) * hσ
  have hD0 : α * γ ≠ 0 := by positivity
  rw [ortho_om, om_inv k (by rw [hD]; exact hD0) hβ.ne', hD]
  obtain ⟨m, hm1, hm2, hall, hs⟩ := third i j hij
  obtain rfl : m = k := third_unique i j k m hij hi hj hm1 hm2
  have hsum : α ^ 2 + γ ^ 2 ≠ 0 := by positivity
  have hdot : (om m ((α + γ) / 2 / (α * γ)) (-(σ * ((α - γ) / 2)) / (α * γ)) β⁻¹ *ᵥ Pi.single i 1) ⬝ᵥ
      (om m ((α + γ) / 2 / (α * γ)) (-(σ * ((α - γ) / 2)) / (α * γ)) β⁻¹ *ᵥ Pi.single i 1) =
      (α ^ 2 + γ ^ 2) / (2 * (α * γ) ^ 2) := by
    rw [dotProduct, hs]
    simp only [mulVec_single_one, col_apply]
    simp only [om, Matrix.of_apply, if_neg hi, if_neg hj, if_neg hij.symm, if_true, if_neg hm1]
    field_simp
    linear_combination ((α - γ) ^ 2) * hσ
  rw [hdot]
  funext l
  simp only [Pi.smul_apply, Pi.sub_apply, smul_eq_mul, mulVec_single_one, col_apply, faceShear]
  rcases hall l with rfl | rfl | rfl
  · simp only [om, Matrix.of_apply, if_neg hi, if_true]
    field_simp
    linear_combination ((α - γ) ^ 2 * (α + γ)) * hσ
  · simp only [om, Matrix.of_apply, if_neg hi, if_neg hj, if_neg hij.symm, if_true]
    field_simp
    ring
  · simp only [om, Matrix.of_apply, if_neg hi, if_neg hm1, if_neg hm2, if_true]
    ring

/-- **C104**, the two variants with the same cube axis: they are twinnable and compound, and `twinparam()` returns the
two twins with the cube planes through that axis, up to the order, a common change of sign of plane and shear, and the
rounding to ten digits (`rnd`); every solution of the twinning equation is one of these. -/
theorem C104_same_axis (eig : Mat3 → EigRes) (heig : ∀ A, Aᵀ = A → EigOK (eig A).vals (eig A).vecs A)
    (ht : t = .code ∨ t = .exact) (rnd : ℝ → ℝ) (h : ClearlyOrthorhombic α β γ) (k : Fin 3)
    {σ : ℝ} (hσ : σ = 1 ∨ σ = -1) (skip : Bool) :
    ∃ p R₁ R₂, ∃ i j : Fin 3, ∃ τ₁ τ₂ : ℝ, i ≠ j ∧ i ≠ k ∧ j ≠ k ∧
      TwinPair.new eig (orthoStretch α β γ k σ) (orthoStretch α β γ k (-σ)) skip = .ok p ∧
      p.isTwinnable = true ∧ p.isCompound = .ok true ∧ p.isTypeI = .ok false ∧
      (τ₁ = 1 ∨ τ₁ = -1) ∧ (τ₂ = 1 ∨ τ₂ = -1) ∧
      p.twinParam eig t rnd false = .ok (some
        (some (R₁, (fun l => rnd (τ₁ * faceShear α γ i j σ l)), fun l => rnd (τ₁ * if l = i then 1 else 0)),
         some (R₂, (fun l => rnd (τ₂ * faceShear α γ j i σ l)), fun l => rnd (τ₂ * if l = j then 1 else 0)))) ∧
      R₁ * orthoStretch α β γ k (-σ) - orthoStretch α β γ k σ =
        vecMulVec (fun l => rnd (τ₁ * faceShear α γ i j σ l)) (fun l => rnd (τ₁ * if l = i then 1 else 0)) ∧
      R₂ * orthoStretch α β γ k (-σ) - orthoStretch α β γ k σ =
        vecMulVec (fun l => rnd (τ₂ * faceShear α γ j i σ l)) (fun l => rnd (τ₂ * if l = j then 1 else 0)) ∧
      ∀ a n : Fin 3 → ℝ, (∃ Q, SolvesTwin (orthoStretch α β γ k σ) (orthoStretch α β γ k (-σ)) Q a n) ↔
        SameUpToSign (faceShear α γ i j σ) (Pi.single i 1) a n ∨ SameUpToSign (faceShear α γ j i σ) (Pi.single j 1) a n := by
  have hσ' : -σ = 1 ∨ -σ = -1 := by rcases hσ with rfl | rfl <;> norm_num
  have hss : σ * σ = 1 := by rcases hσ with rfl | rfl <;> norm_num
  have hw := clearly_wide h hσ
  have hw' := clearly_wide h hσ'
  have hα : 0 < α := lt_of_lt_of_le (by norm_num) h.1.1
  have hβ : 0 < β := lt_of_lt_of_le (by norm_num) h.2.1.1
  have hγ : 0 < γ := lt_of_lt_of_le (by norm_num) h.2.2.1.1
  have hU : IsSPD (orthoStretch α β γ k σ) := hw.spd k
  have hV : IsSPD (orthoStretch α β γ k (-σ)) := hw'.spd k
  have hVe : orthoStretch α β γ k (-σ) = om k ((α + γ) / 2) (-(σ * ((α - γ) / 2))) β := by
    rw [ortho_om, neg_mul]
  have hax : ∀ i, i ≠ k → IsTwinAxis (orthoStretch α β γ k σ) (orthoStretch α β γ k (-σ)) (Pi.single i 1) := by
    intro i hi
    rw [hVe]
    exact edge_axis hi
  obtain ⟨i, j, hij, hi, hj⟩ := two_others k
  have hb0 : σ * ((α - γ) / 2) ≠ 0 := by
    intro h0
    have := hw.big
    rw [h0] at this
    norm_num at this
  have hne : orthoStretch α β γ k σ ≠ orthoStretch α β γ k (-σ) := by
    intro he
    rw [hVe] at he
    have := (om_inj hb0 rfl he).2
    exact hb0 (by linarith)
  have hd : ∃ i j, 1 / 10 ^ 12 ≤ |orthoStretch α β γ k σ i j - orthoStretch α β γ k (-σ) i j| := by
    rw [hVe] at hne ⊢
    exact om_far_apart hw (abs_neg _) hne
  have hrel := axis_related (hax i hi)
  have hc := axis_connected hU (hax i hi)
  have hS := setup eig heig hU hV hrel hd hc
  obtain ⟨he, -⟩ := sortEig_spec (heig _ (relMetric_symm hU.1 hV.1))
  have hcl := commuting_clean hS he (by rw [hVe, ortho_om, om_mul, om_mul]; congr 1 <;> ring)
  obtain ⟨q, hq, hc'⟩ := C69_compound eig heig _ _ hU hV hrel hd hc skip
  rw [new_ok eig hU hV] at hq
  cases hq
  obtain ⟨bb, hb1, hb2, hb3⟩ := hc' hcl
  have hsingle : ∀ i j : Fin 3, i ≠ j → (Pi.single j (1 : ℝ) : V3) ≠ Pi.single i 1 ∧ (Pi.single j (1 : ℝ) : V3) ≠ -Pi.single i 1 := by
    intro i j hij
    constructor <;> intro he <;> have := congrFun he j <;> simp [hij.symm] at this
  have hbt : bb = true := hb3.2 ⟨_, _, hax i hi, hax j hj, (hsingle i j hij).1, (hsingle i j hij).2⟩
  subst hbt
  obtain ⟨vs, hvs, -, -, -, hmem⟩ := C104_variants ht h k hσ
  obtain ⟨Q₁, a₁, n₁, Q₂, a₂, n₂, hpar, h1, h2, ho⟩ := twinParam_axis eig heig t rnd hU hV hrel hd hc hvs
    ((hmem _).2 ⟨k, -σ, hσ', rfl⟩) (new_ok eig hU hV skip) hcl
  obtain ⟨P₁, s1⟩ := axis_solves hU (hax i hi)
  obtain ⟨P₂, s2⟩ := axis_solves hU (hax j hj)
  rw [same_face_shear hij hi hj hα hγ hβ hss] at s1
  rw [same_face_shear hij.symm hj hi hα hγ hβ hss] at s2
  have ho' : (Pi.single i (1 : ℝ) : V3) ⬝ᵥ Pi.single j 1 = 0 := by simp [hij.symm]
  have hall := fun Q a n hs => twins_all hU hV hne hrel s1 s2 ho' (Q := Q) (a := a) (n := n) hs
  have sneg : ∀ {Q a n}, SolvesTwin (orthoStretch α β γ k σ) (orthoStretch α β γ k (-σ)) Q a n →
      SolvesTwin (orthoStretch α β γ k σ) (orthoStretch α β γ k (-σ)) Q (-a) (-n) := by
    intro Q a n hs
    exact ⟨hs.rotation, by rw [neg_dotProduct, dotProduct_neg, neg_neg]; exact hs.unit,
      by rw [neg_vecMulVec, vecMulVec_neg, neg_neg]; exact hs.equation⟩
  have hiff : ∀ a n : Fin 3 → ℝ, (∃ Q, SolvesTwin (orthoStretch α β γ k σ) (orthoStretch α β γ k (-σ)) Q a n) ↔
        SameUpToSign (faceShear α γ i j σ) (Pi.single i 1) a n ∨ SameUpToSign (faceShear α γ j i σ) (Pi.single j 1) a n := by
    intro a n
    constructor
    · rintro ⟨Q, hQ⟩
      rcases hall Q a n hQ with ⟨-, h⟩ | ⟨-, h⟩
      · exact .inl h
      · exact .inr h
    · rintro ((⟨rfl, rfl⟩ | ⟨rfl, rfl⟩) | (⟨rfl, rfl⟩ | ⟨rfl, rfl⟩))
      · exact ⟨_, s1⟩
      · exact ⟨_, sneg s1⟩
      · exact ⟨_, s2⟩
      · exact ⟨_, sneg s2⟩
  have huV := isUnit_iff_ne_zero.2 (spd_det_pos hV).ne'
  have hR : ∀ a n : V3, (orthoStretch α β γ k σ + outer a n) * (orthoStretch α β γ k (-σ))⁻¹ * orthoStretch α β γ k (-σ) -
      orthoStretch α β γ k σ = vecMulVec a n := fun a n => by
    rw [Matrix.mul_assoc, nonsing_inv_mul _ huV, Matrix.mul_one, outer_eq, add_sub_cancel_left]
  have hsg : ∀ {i j : Fin 3} {a n : V3}, SameUpToSign (faceShear α γ i j σ) (Pi.single i 1) a n →
      ∃ τ : ℝ, (τ = 1 ∨ τ = -1) ∧ a = (fun l => τ * faceShear α γ i j σ l) ∧ n = fun l => τ * if l = i then 1 else 0 := by
    rintro i j a n (⟨rfl, rfl⟩ | ⟨rfl, rfl⟩)
    · refine ⟨1, .inl rfl, by simp, ?_⟩
      funext l; simp [Pi.single_apply]
    · refine ⟨-1, .inr rfl, by funext l; simp, ?_⟩
      funext l
      rw [Pi.neg_apply, Pi.single_apply, neg_one_mul]
  have hnot : ∀ {i j j' : Fin 3}, SameUpToSign (faceShear α γ i j σ) (Pi.single i 1) a₁ n₁ →
      SameUpToSign (faceShear α γ i j' σ) (Pi.single i 1) a₂ n₂ → False := by
    rintro i j j' (⟨-, e1⟩ | ⟨-, e1⟩) (⟨-, e2⟩ | ⟨-, e2⟩) <;> rw [e1, e2] at ho <;> simp at ho
  rcases (hiff a₁ n₁).1 ⟨_, h1⟩ with g1 | g1 <;> rcases (hiff a₂ n₂).1 ⟨_, h2⟩ with g2 | g2
  · exact (hnot g1 g2).elim
  · obtain ⟨τ₁, t1, rfl, rfl⟩ := hsg g1
    obtain ⟨τ₂, t2, rfl, rfl⟩ := hsg g2
    exact ⟨_, _, _, i, j, τ₁, τ₂, hij, hi, hj, new_ok eig hU hV skip, hS.twinnable, hb1, hb2, t1, t2, hpar, hR _ _, hR _ _, hiff⟩
  · obtain ⟨τ₁, t1, rfl, rfl⟩ := hsg g1
    obtain ⟨τ₂, t2, rfl, rfl⟩ := hsg g2
    exact ⟨_, _, _, j, i, τ₁, τ₂, hij.symm, hj, hi, new_ok eig hU hV skip, hS.twinnable, hb1, hb2, t1, t2, hpar, hR _ _, hR _ _,
      fun a n => (hiff a n).trans or_comm⟩
  · exact (hnot g1 g2).elim

/-- the doc comment of `orthoStretch` is right about the principal directions -/
theorem orthoStretch_principal {i j k : Fin 3} (hij : i ≠ j) (hi : i ≠ k) (hj : j ≠ k) {σ : ℝ} (hσ : σ * σ = 1) :
    orthoStretch α β γ k σ *ᵥ Pi.single k 1 = β • Pi.single k 1 ∧
    orthoStretch α β γ k σ *ᵥ diagonalNormal i j σ = α • diagonalNormal i j σ ∧
    orthoStretch α β γ k σ *ᵥ diagonalNormal i j (-σ) = γ • diagonalNormal i j (-σ) := by
  obtain ⟨m, hm1, hm2, hall, hs⟩ := third i j hij
  obtain rfl : m = k := third_unique i j k m hij hi hj hm1 hm2
  refine ⟨?_, ?_, ?_⟩ <;> funext l <;> rw [mulVec, dotProduct, hs] <;> rcases hall l with rfl | rfl | rfl <;>
    simp [orthoStretch, diagonalNormal, hij, hij.symm, hi, hi.symm, hj, hj.symm, -Pi.single_eq_same] <;>
    first | done | (field_simp; linear_combination ((α - γ) : ℝ) * hσ) | (field_simp; linear_combination ((γ - α) : ℝ) * hσ) | (field_simp; ring)

-- the lattice parameters of a Cu-Al-Ni alloy meet the hypothesis
example : ClearlyOrthorhombic (1.0619 : ℝ) 0.9178 1.0230 := by
  refine ⟨⟨by norm_num, by norm_num⟩, ⟨by norm_num, by norm_num⟩, ⟨by norm_num, by norm_num⟩, ?_, ?_, ?_⟩ <;>
    rw [le_abs] <;> norm_num

end Verif.Props
