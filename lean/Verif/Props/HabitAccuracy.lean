import Verif.Spec.HabitAccuracy
import Verif.Props.BestRankOne
import Verif.Props.FractionAccuracy

/-!
# Accuracy of `habitplanes()` for every small stretch of a cube

C118: with the rounding of `twinparam()` to ten decimals, the triples are habit planes of the exact laminates up to a small error.
-/

namespace Verif.Props

open Matrix Verif.Model Verif.Spec Verif.Lemmas

local notation "Mat3" => Matrix (Fin 3) (Fin 3) ℝ

variable {U V W : Mat3} {t : Tol}

/-! ### perturbations -/

theorem gram_form (F : Mat3) (x : V3) : x ⬝ᵥ (Fᵀ * F) *ᵥ x = (F *ᵥ x) ⬝ᵥ (F *ᵥ x) := by
  rw [← mulVec_mulVec, dotProduct_mulVec, vecMul_transpose]

theorem entry_form {M : Mat3} {c : ℝ} (h : ∀ i j, |M i j| ≤ c) (x : V3) : (M *ᵥ x) ⬝ᵥ (M *ᵥ x) ≤ (3 * c) ^ 2 * (x ⬝ᵥ x) := by
  have row : ∀ i, (M *ᵥ x) i * (M *ᵥ x) i ≤ 3 * c ^ 2 * (x ⬝ᵥ x) := fun i => by
    have h1 := cauchy3 (M i) x
    have h2 : M i ⬝ᵥ M i ≤ 3 * c ^ 2 := by
      have e : ∀ j, M i j * M i j ≤ c ^ 2 := fun j => by
        rw [← pow_two, ← sq_abs]
        exact pow_le_pow_left₀ (abs_nonneg _) (h i j) 2
      rw [Lemmas.dot3]
      linarith [e 0, e 1, e 2]
    have h3 := mul_le_mul_of_nonneg_right h2 (self_nonneg x)
    rw [← pow_two]
    exact h1.trans h3
  rw [Lemmas.dot3 (M *ᵥ x)]
  linarith [row 0, row 1, row 2]

theorem form_close {F F' : Mat3} (h : ∀ i j, |F' i j - F i j| ≤ 26 / 10 ^ 11) (h6 : ∀ i j, |F i j| ≤ 6) (x : V3) :
    |(F' *ᵥ x) ⬝ᵥ (F' *ᵥ x) - (F *ᵥ x) ⬝ᵥ (F *ᵥ x)| ≤ 3 / 10 ^ 8 * (x ⬝ᵥ x) := by
  have e : (F' *ᵥ x) ⬝ᵥ (F' *ᵥ x) - (F *ᵥ x) ⬝ᵥ (F *ᵥ x) = ((F' - F) *ᵥ x) ⬝ᵥ ((F' + F) *ᵥ x) := by
    rw [sub_mulVec, add_mulVec, sub_dotProduct, dotProduct_add, dotProduct_add, dotProduct_comm (F *ᵥ x) (F' *ᵥ x)]
    ring
  have h1 := entry_form (M := F' - F) h x
  have h2 := entry_form (M := F' + F) (c := 1201 / 100) (fun i j => by
    have e : (F' + F) i j = (F' i j - F i j) + 2 * F i j := by rw [Matrix.add_apply]; ring
    have h3 := h i j
    have h4 := h6 i j
    rw [abs_le] at h3 h4 ⊢
    rw [e]
    norm_num only at h3 h4 ⊢
    constructor <;> linarith) x
  rw [e]
  refine abs_le_of_sq_le_sq ?_ (mul_nonneg (by norm_num) (self_nonneg x))
  refine (cauchy3 _ _).trans ((mul_le_mul h1 h2 (self_nonneg _) (mul_nonneg (by norm_num) (self_nonneg x))).trans ?_)
  have := self_nonneg x
  have e3 : (3 * (26 / 10 ^ 11)) ^ 2 * (x ⬝ᵥ x) * ((3 * (1201 / 100)) ^ 2 * (x ⬝ᵥ x)) =
    (3 * (26 / 10 ^ 11) * (3 * (1201 / 100)) * (x ⬝ᵥ x)) ^ 2 := by ring
  rw [e3]
  refine pow_le_pow_left₀ (mul_nonneg (by norm_num) this) (mul_le_mul_of_nonneg_right ?_ this) 2
  norm_num

/-! ### eigenvalues and quadratic forms -/

theorem frame_bounds {C : Mat3} {l : Fin 3 → ℝ} (hl : Monotone l) {x w z : V3} (h : EigFrame C l x w z) (v : V3) :
    l 0 * (v ⬝ᵥ v) ≤ v ⬝ᵥ C *ᵥ v ∧ v ⬝ᵥ C *ᵥ v ≤ l 2 * (v ⬝ᵥ v) := by
  have h01 : l 0 ≤ l 1 := hl (by decide)
  have h12 : l 1 ≤ l 2 := hl (by decide)
  rw [h.form, h.length v]
  constructor <;> nlinarith [pow_two_nonneg (x ⬝ᵥ v), pow_two_nonneg (w ⬝ᵥ v), pow_two_nonneg (z ⬝ᵥ v)]

theorem frame_ends {C : Mat3} {l : Fin 3 → ℝ} {x w z : V3} (h : EigFrame C l x w z) :
    x ⬝ᵥ C *ᵥ x = l 0 ∧ w ⬝ᵥ C *ᵥ w = l 1 ∧ z ⬝ᵥ C *ᵥ z = l 2 := by
  have hwx : w ⬝ᵥ x = 0 := by rw [dotProduct_comm]; exact h.xw
  have hzx : z ⬝ᵥ x = 0 := by rw [dotProduct_comm]; exact h.xz
  have hwz : w ⬝ᵥ z = 0 := by rw [dotProduct_comm]; exact h.zw
  simp only [h.form, h.ux, h.uw, h.uz, h.xw, h.xz, h.zw, hwx, hzx, hwz]
  refine ⟨?_, ?_, ?_⟩ <;> ring

/-- one half of the theorem of Weyl for the middle eigenvalue -/
theorem weyl_half {C C' : Mat3} {l l' : Fin 3 → ℝ} (hl : Monotone l) (hl' : Monotone l') {x w z x' w' z' : V3}
    (h : EigFrame C l x w z) (h' : EigFrame C' l' x' w' z') {ε : ℝ} (hc : ∀ v : V3, |v ⬝ᵥ C' *ᵥ v - v ⬝ᵥ C *ᵥ v| ≤ ε * (v ⬝ᵥ v)) :
    l' 1 ≤ l 1 + ε := by
  have h01 : l 0 ≤ l 1 := hl (by decide)
  have h12 : l' 1 ≤ l' 2 := hl' (by decide)
  obtain ⟨v, h1, h2, h3⟩ := exists_perp h.uz h.uw h.zw x'
  have e1 := h.form v
  have e2 := h'.form v
  have e3 := h.length v
  have e4 := h'.length v
  have e5 := (abs_le.1 (hc v)).2
  rw [h1] at e3 e4 e5
  rw [h2] at e1 e3
  rw [h3] at e2 e4
  have t1 := mul_le_mul_of_nonneg_right h01 (pow_two_nonneg (x ⬝ᵥ v))
  have t2 := mul_le_mul_of_nonneg_right h12 (pow_two_nonneg (z' ⬝ᵥ v))
  have t3 : v ⬝ᵥ C *ᵥ v ≤ l 1 := by
    rw [e1]
    linear_combination t1 - l 1 * e3
  have t4 : l' 1 ≤ v ⬝ᵥ C' *ᵥ v := by
    rw [e2]
    linear_combination t2 + l' 1 * e4
  linarith

theorem eig_scalar {C : Mat3} (hC : Cᵀ = C) {l : Fin 3 → ℝ} (h : IsEigenvalues C l) (h01 : l 0 = l 1) (h12 : l 1 = l 2) :
    C = l 1 • (1 : Mat3) := by
  have h1 := charpoly_three h 1
  have h2 := charpoly_three h (-1)
  have ht := trace_three h
  rw [h01, ← h12] at h1 h2 ht
  have s1 : C 1 0 = C 0 1 := congrFun (congrFun hC 0) 1
  have s2 : C 2 0 = C 0 2 := congrFun (congrFun hC 0) 2
  have s3 : C 2 1 = C 1 2 := congrFun (congrFun hC 1) 2
  rw [trace_fin_three] at ht
  rw [det_fin_three] at h1 h2
  simp [s1, s2, s3] at h1 h2
  generalize l 1 = c at *
  have key : (C 0 0 - c) ^ 2 + (C 1 1 - c) ^ 2 + (C 2 2 - c) ^ 2 + 2 * (C 0 1 ^ 2 + C 0 2 ^ 2 + C 1 2 ^ 2) = 0 := by
    linear_combination (C 0 0 + C 1 1 + C 2 2 + c) * ht - (h1 - h2) + 2 * c * 0
  have p1 := pow_two_nonneg (C 0 0 - c)
  have p2 := pow_two_nonneg (C 1 1 - c)
  have p3 := pow_two_nonneg (C 2 2 - c)
  have p4 := pow_two_nonneg (C 0 1)
  have p5 := pow_two_nonneg (C 0 2)
  have p6 := pow_two_nonneg (C 1 2)
  have q1 : C 0 0 - c = 0 := pow_eq_zero_iff (two_ne_zero) |>.1 (by linarith)
  have q2 : C 1 1 - c = 0 := pow_eq_zero_iff (two_ne_zero) |>.1 (by linarith)
  have q3 : C 2 2 - c = 0 := pow_eq_zero_iff (two_ne_zero) |>.1 (by linarith)
  have q4 : C 0 1 = 0 := pow_eq_zero_iff (two_ne_zero) |>.1 (by linarith)
  have q5 : C 0 2 = 0 := pow_eq_zero_iff (two_ne_zero) |>.1 (by linarith)
  have q6 : C 1 2 = 0 := pow_eq_zero_iff (two_ne_zero) |>.1 (by linarith)
  ext i j
  fin_cases i <;> fin_cases j <;> simp [s1, s2, s3, q4, q5, q6] <;> linarith

theorem angle_bound {p q c g : ℝ} (h : c * (q - p) = 2 - p - q) (h1 : p ≤ 1 - g / 2) (h2 : 1 + g / 2 ≤ q) (h3 : 1 / 20 ≤ p)
    (h4 : q ≤ 4 + 1 / 20) (h5 : 0 < q - p) (hg : 1 / 500 ≤ g) : |c| ≤ 1 - g / 4 := by
  have k : ∀ t : ℝ, g ≤ t * (q - p) → g / 4 ≤ t := fun t ht => by
    have t0 : 0 < t := by
      by_contra hn
      have := mul_nonpos_of_nonpos_of_nonneg (not_lt.1 hn) h5.le
      linarith
    have := mul_le_mul_of_nonneg_left (by linarith : q - p ≤ 4) t0.le
    linarith
  rw [abs_le]
  have a := k (1 - c) (by rw [sub_mul, h]; linarith)
  have b := k (1 + c) (by rw [add_mul, h]; linarith)
  constructor <;> linarith

/-- `_solve_am` for a matrix near the metric of a deformation that almost has habit planes -/
theorem am_near (eig : Mat3 → EigRes) (heig : ∀ A, Aᵀ = A → EigOK (eig A).vals (eig A).vecs A)
    {F F' : Mat3} {l : Fin 3 → ℝ} (hl : SortedEigenvalues (Fᵀ * F) l) {g e : ℝ} (hg : 1 / 500 ≤ g) (he : e ≤ 1 / 1000)
    (hlow : 1 / 10 ≤ l 0) (h0 : l 0 ≤ 1 - g) (h1 : |1 - l 1| ≤ e) (h2 : 1 + g ≤ l 2) (h4 : l 2 ≤ 4)
    (hc : ∀ x : V3, |(F' *ᵥ x) ⬝ᵥ (F' *ᵥ x) - (F *ᵥ x) ⬝ᵥ (F *ᵥ x)| ≤ 3 / 10 ^ 8 * (x ⬝ᵥ x)) :
    ∃ R₁ b₁ m₁ R₂ b₂ m₂, extendAm eig (F'ᵀ * F') = .ok [some (R₁, b₁, m₁), some (R₂, b₂, m₂)] ∧
      ApproxHabit F (e + 1 / 10 ^ 7) R₁ b₁ m₁ ∧ ApproxHabit F (e + 1 / 10 ^ 7) R₂ b₂ m₂ ∧ |m₁ ⬝ᵥ m₂| ≤ 1 - g / 4 := by
  have hg0 : 0 < g := lt_of_lt_of_le (by norm_num) hg
  have hsC := gram_symm F
  have hsC' := gram_symm F'
  obtain ⟨s1, s2⟩ := sorted_eq (heig _ hsC) hl
  have hf := eig_frame hsC s1 (by rw [s2]; linarith)
  rw [s2] at hf
  have hcc : ∀ v : V3, |v ⬝ᵥ (F'ᵀ * F') *ᵥ v - v ⬝ᵥ (Fᵀ * F) *ᵥ v| ≤ 3 / 10 ^ 8 * (v ⬝ᵥ v) := fun v => by
    rw [gram_form, gram_form]; exact hc v
  have hC' : IsSPD (F'ᵀ * F') := by
    refine ⟨hsC', fun x hx => ?_⟩
    have p := self_pos hx
    have q := (frame_bounds hl.1 hf x).1
    have r := (abs_le.1 (hcc x)).1
    norm_num only at r
    nlinarith
  obtain ⟨k1, k2⟩ := sortEig_spec (heig _ hsC')
  set l' := (sortEig eig (F'ᵀ * F')).vals with hl'
  have hL : SortedEigenvalues (F'ᵀ * F') l' := ⟨k2, k1.eigenvalues⟩
  have b01 : l' 0 ≤ l' 1 := k2 (by decide)
  have b12 : l' 1 ≤ l' 2 := k2 (by decide)
  -- the extreme eigenvalues differ, because the form takes different values
  obtain ⟨f0, f1, f2⟩ := frame_ends hf
  have v0 := (abs_le.1 (hcc ((sortEig eig (Fᵀ * F)).vecs 0))).2
  have v2 := (abs_le.1 (hcc ((sortEig eig (Fᵀ * F)).vecs 2))).1
  rw [f0, hf.ux] at v0
  rw [f2, hf.uz] at v2
  have hlt : l' 0 < l' 2 := by
    by_contra hn
    have e02 : l' 0 = l' 1 := le_antisymm b01 (by linarith [not_lt.1 hn])
    have e12 : l' 1 = l' 2 := le_antisymm b12 (by linarith [not_lt.1 hn])
    have hsc := eig_scalar hsC' k1.eigenvalues e02 e12
    rw [hsc, smul_mulVec, one_mulVec, dotProduct_smul, hf.ux, smul_eq_mul, mul_one] at v0
    rw [hsc, smul_mulVec, one_mulVec, dotProduct_smul, hf.uz, smul_eq_mul, mul_one] at v2
    norm_num only at v0 v2
    linarith
  have hf' := eig_frame hsC' k1 hlt
  have u0 := (frame_bounds k2 hf' ((sortEig eig (Fᵀ * F)).vecs 0)).1
  have u2 := (frame_bounds k2 hf' ((sortEig eig (Fᵀ * F)).vecs 2)).2
  rw [hf.ux, mul_one] at u0
  rw [hf.uz, mul_one] at u2
  have w1 := weyl_half hl.1 k2 hf hf' hcc
  have w2 := weyl_half k2 hl.1 hf' hf (fun v => by rw [abs_sub_comm]; exact hcc v)
  have w0 : 1 / 10 - 3 / 10 ^ 8 ≤ l' 0 := by
    obtain ⟨g0, -, -⟩ := frame_ends hf'
    have q := (frame_bounds hl.1 hf ((sortEig eig (F'ᵀ * F')).vecs 0)).1
    have r := (abs_le.1 (hcc ((sortEig eig (F'ᵀ * F')).vecs 0))).1
    rw [hf'.ux] at q r
    rw [g0] at r
    linarith
  rw [abs_le] at h1
  have hd : |1 - l' 1| ≤ e + 3 / 10 ^ 8 := by
    rw [abs_le]; constructor <;> linarith
  have hd2 := abs_le.1 hd
  norm_num only at v0 v2 w0 hd2 u0 u2
  have a0 : l' 0 ≤ 1 := by linarith
  have a2 : 1 ≤ l' 2 := by linarith
  have hinj : Function.Injective l' := by
    have a01 : l' 0 < l' 1 := by linarith
    have a12 : l' 1 < l' 2 := by linarith
    have hmono : StrictMono l' := by
      intro i j hij
      fin_cases i <;> fin_cases j <;> first | exact absurd hij (by decide) | exact a01 | exact a12 | exact a01.trans a12
    exact hmono.injective
  obtain ⟨R₁, b₁, m₁, R₂, b₂, m₂, S, r1, r2, r3, hS, hSS, r4, r5, r6, r7, r8, r9, r10⟩ := C117_solve_am eig heig _ hC' l' hL a0 a2
    (by norm_num only; linarith) (eig_indep hsC' (heig _ hsC') hL.2 hinj)
  have fin : ∀ {R : Mat3} {b m : V3}, BestRankOne (F'ᵀ * F') |1 - l' 1| b m → R * S = 1 + vecMulVec b m → 0 < R.det →
      (∀ x, |(R *ᵥ x) ⬝ᵥ (R *ᵥ x) - x ⬝ᵥ x| ≤ |1 - l' 1| / l' 0 * (x ⬝ᵥ x)) → ApproxHabit F (e + 1 / 10 ^ 7) R b m := by
    intro R b m hb hR hdet hrot
    have e0 : 0 ≤ e := by linarith
    refine ⟨hb.unit, hb.orientation, fun x => ?_, ⟨S, hS, fun x => ?_, hR⟩, hdet, fun x => (hrot x).trans ?_⟩
    · have q := hb.close x
      have r := hcc x
      have e1 : lengthError (Fᵀ * F) b m x = lengthError (F'ᵀ * F') b m x + (x ⬝ᵥ (F'ᵀ * F') *ᵥ x - x ⬝ᵥ (Fᵀ * F) *ᵥ x) := by
        rw [lengthError, lengthError]; ring
      rw [e1]
      have p := self_nonneg x
      have q' := q.trans (mul_le_mul_of_nonneg_right hd p)
      have := abs_add_le (lengthError (F'ᵀ * F') b m x) (x ⬝ᵥ (F'ᵀ * F') *ᵥ x - x ⬝ᵥ (Fᵀ * F) *ᵥ x)
      norm_num only at q' r this ⊢
      nlinarith
    · have e2 : (S *ᵥ x) ⬝ᵥ (S *ᵥ x) = (F' *ᵥ x) ⬝ᵥ (F' *ᵥ x) := by
        rw [← gram_form, ← gram_form, hS.1, hSS]
      rw [e2]
      have p := self_nonneg x
      refine (hc x).trans (mul_le_mul_of_nonneg_right ?_ p)
      norm_num only
      linarith
    · refine mul_le_mul_of_nonneg_right ?_ (self_nonneg x)
      rw [div_le_iff₀ (by linarith)]
      refine hd.trans ?_
      norm_num only at hd ⊢
      nlinarith
  refine ⟨R₁, b₁, m₁, R₂, b₂, m₂, by rw [extendAm, r1], fin r2 r4 r5 r6, fin r3 r7 r8 r9, ?_⟩
  have w4 : l' 2 ≤ 4 + 3 / 10 ^ 8 := by
    obtain ⟨-, -, g2⟩ := frame_ends hf'
    have q := (frame_bounds hl.1 hf ((sortEig eig (F'ᵀ * F')).vecs 2)).2
    have r := (abs_le.1 (hcc ((sortEig eig (F'ᵀ * F')).vecs 2))).2
    rw [hf'.uz] at q r
    rw [g2] at r
    linarith
  norm_num only at w4
  have hw : 0 < l' 2 - l' 0 := by linarith
  exact angle_bound r10 (by linarith) (by linarith) (by linarith) (by linarith) hw hg

theorem rayleigh (eig : Mat3 → EigRes) {C : Mat3} (hC : Cᵀ = C) (heig : EigOK (eig C).vals (eig C).vecs C) {l : Fin 3 → ℝ}
    (hl : SortedEigenvalues C l) (v : V3) : l 0 * (v ⬝ᵥ v) ≤ v ⬝ᵥ C *ᵥ v ∧ v ⬝ᵥ C *ᵥ v ≤ l 2 * (v ⬝ᵥ v) := by
  have h01 : l 0 ≤ l 1 := hl.1 (by decide)
  have h12 : l 1 ≤ l 2 := hl.1 (by decide)
  obtain ⟨s1, s2⟩ := sorted_eq heig hl
  by_cases h : l 0 < l 2
  · have hf := eig_frame hC s1 (by rw [s2]; exact h)
    rw [s2] at hf
    exact frame_bounds hl.1 hf v
  · have e1 : l 0 = l 1 := le_antisymm h01 (by linarith)
    have e2 : l 1 = l 2 := le_antisymm h12 (by linarith)
    have hs := eig_scalar hC hl.2 e1 e2
    conv => rw [hs]
    rw [smul_mulVec, one_mulVec, dotProduct_smul, smul_eq_mul, e1, ← e2]
    exact ⟨le_rfl, le_rfl⟩

/-! ### laminates of small stretches -/

theorem small_det (eig : Mat3 → EigRes) (heig : ∀ A, Aᵀ = A → EigOK (eig A).vals (eig A).vecs A) (h : SmallStretch V) :
    27 / 64 ≤ V.det * V.det := by
  have hs : (Vᵀ * V)ᵀ = Vᵀ * V := gram_symm V
  have he := heig _ hs
  have hd := det_three he.eigenvalues
  have hb : ∀ i, 3 / 4 ≤ (eig (Vᵀ * V)).vals i := fun i => by
    have h1 := small_lower h ((eig (Vᵀ * V)).vecs i)
    rw [← gram_form, he.eigenvector i, dotProduct_smul, he.unit i, smul_eq_mul, mul_one, mul_one] at h1
    exact h1
  rw [det_mul, det_transpose] at hd
  rw [hd]
  have h1 := mul_le_mul (hb 0) (hb 1) (by norm_num) (by linarith [hb 0])
  have h2 := mul_le_mul h1 (hb 2) (by norm_num) (by linarith [h1])
  linarith

theorem laminate_upper (sV : SmallStretch V) (sW : SmallStretch W) {Q : Mat3} {a n : V3} (h : SolvesTwin V W Q a n) {f : ℝ}
    (h0 : 0 ≤ f) (h1 : f ≤ 1) (x : V3) :
    ((V + f • vecMulVec a n) *ᵥ x) ⬝ᵥ ((V + f • vecMulVec a n) *ᵥ x) ≤ 4 * (x ⬝ᵥ x) := by
  set u := V *ᵥ x with hu
  set w := Q *ᵥ (W *ᵥ x) with hw
  have e1 : (V + f • vecMulVec a n) *ᵥ x = (1 - f) • u + f • w := by
    rw [← h.equation, add_mulVec, smul_mulVec, sub_mulVec, ← mulVec_mulVec, ← hu, ← hw]
    module
  have e2 : w ⬝ᵥ w = (W *ᵥ x) ⬝ᵥ (W *ᵥ x) := by
    rw [hw, ← gram_form, mul_eq_one_comm.1 h.rotation.1, one_mulVec]
  have b1 := small_upper sV x
  have b2 := small_upper sW x
  rw [← e2] at b2
  rw [← hu] at b1
  have b3 := self_nonneg (u - w)
  have e3 : ((1 - f) • u + f • w) ⬝ᵥ ((1 - f) • u + f • w) =
      (1 - f) * (u ⬝ᵥ u) + f * (w ⬝ᵥ w) - f * (1 - f) * ((u - w) ⬝ᵥ (u - w)) := by
    simp only [dotProduct_add, add_dotProduct, dotProduct_sub, sub_dotProduct, dotProduct_smul, smul_dotProduct, smul_eq_mul,
      dotProduct_comm w u]
    ring
  rw [e1, e3]
  have t1 := mul_le_mul_of_nonneg_left b1 (sub_nonneg.2 h1)
  have t2 := mul_le_mul_of_nonneg_left b2 h0
  have t3 := mul_nonneg (mul_nonneg h0 (sub_nonneg.2 h1)) b3
  linarith

/-- one twin: the four triples of one pass of the loop -/
theorem step_near (eig : Mat3 → EigRes) (heig : ∀ A, Aᵀ = A → EigOK (eig A).vals (eig A).vecs A)
    (sV : SmallStretch V) (sW : SmallStretch W) (hrel : Related V W) {E Q : Mat3} {a n b m : V3} (ha : Approximates V W E a n Q b m)
    {f g : ℝ} (h0 : 0 ≤ f) (h1 : f ≤ 1) (hD : |interfaceDet V a n f| ≤ 1 / 10 ^ 9) (hg : 1 / 500 ≤ g)
    (hs : StretchesBothWays (V + f • vecMulVec a n) g) :
    ∃ x₁ x₂ x₃ x₄ : Mat3 × V3 × V3,
      habitStep eig V (some (Q, b, m)) (some f) = .ok [some x₁, some x₂, some x₃, some x₄] ∧
      (∀ x ∈ [x₁, x₂], ApproxHabit (V + f • vecMulVec a n) (1 / 10 ^ 9 / g ^ 2 + 1 / 10 ^ 7) x.1 x.2.1 x.2.2) ∧
      (∀ x ∈ [x₃, x₄], ApproxHabit (V + (1 - f) • vecMulVec a n) (1 / 10 ^ 9 / g ^ 2 + 1 / 10 ^ 7) x.1 x.2.1 x.2.2) ∧
      |x₁.2.2 ⬝ᵥ x₂.2.2| ≤ 1 - g / 4 ∧ |x₃.2.2 ⬝ᵥ x₄.2.2| ≤ 1 - g / 4 := by
  have hg0 : 0 < g := lt_of_lt_of_le (by norm_num) hg
  have hV := small_spd sV
  have hsy := gram_symm (V + f • vecMulVec a n)
  obtain ⟨k1, k2⟩ := sortEig_spec (heig _ hsy)
  obtain ⟨l, hl0⟩ : ∃ l, (sortEig eig ((V + f • vecMulVec a n)ᵀ * (V + f • vecMulVec a n))).vals = l := ⟨_, rfl⟩
  have hl : SortedEigenvalues ((V + f • vecMulVec a n)ᵀ * (V + f • vecMulVec a n)) l := by
    rw [← hl0]; exact ⟨k2, k1.eigenvalues⟩
  have hl' := laminate_swap hV (small_spd sW) hrel ha.exact f hl
  obtain ⟨⟨p, p1, p2⟩, q, q1, q2⟩ := hs
  have c0 : l 0 ≤ 1 - g := by
    have := (rayleigh eig hsy (heig _ hsy) hl p).1
    rw [gram_form, p1, mul_one] at this
    linarith
  have c2 : 1 + g ≤ l 2 := by
    have := (rayleigh eig hsy (heig _ hsy) hl q).2
    rw [gram_form, q1, mul_one] at this
    linarith
  have hdet := eigenvalues_sub hl.2
  have c1 : |1 - l 1| ≤ 1 / 10 ^ 9 / g ^ 2 := by
    rw [laminate_metric sV.symmetric] at hdet
    change interfaceDet V a n f = _ at hdet
    rw [hdet, abs_mul, abs_mul, abs_of_neg (by linarith : l 0 - 1 < 0), abs_of_pos (by linarith : 0 < l 2 - 1), abs_sub_comm] at hD
    rw [le_div_iff₀ (by positivity)]
    refine le_trans ?_ hD
    have t := mul_le_mul (by linarith : g ≤ -(l 0 - 1)) (by linarith : g ≤ l 2 - 1) hg0.le (by linarith)
    have := mul_le_mul_of_nonneg_left t (abs_nonneg (1 - l 1))
    linarith
  have hee : 1 / 10 ^ 9 / g ^ 2 ≤ 1 / 1000 := by
    rw [div_le_iff₀ (by positivity)]
    have := pow_le_pow_left₀ (by norm_num) hg 2
    norm_num only at this ⊢
    linarith
  have u2 : l 2 ≤ 4 := by
    have t := laminate_upper sV sW ha.exact h0 h1 ((sortEig eig ((V + f • vecMulVec a n)ᵀ * (V + f • vecMulVec a n))).vecs 2)
    rw [← gram_form, k1.eigenvector 2, dotProduct_smul, k1.unit 2, hl0, smul_eq_mul, mul_one, mul_one] at t
    exact t
  have clow : 1 / 10 ≤ l 0 := by
    have d1 := det_three hl.2
    rw [det_mul, det_transpose, laminate_det hV hrel ha.exact] at d1
    have d2 := small_det eig heig sV
    rw [d1] at d2
    have u1 : l 1 ≤ 1 + 1 / 1000 := by
      have := (abs_le.1 (c1.trans hee)).1
      linarith
    have pos0 : 0 ≤ l 0 := (spd_eigen_pos (spd_of_gram (by
      rw [laminate_det hV hrel ha.exact]; exact (spd_det_pos hV).ne')) hl.2 0).le
    have pos2 : 0 ≤ l 2 := by linarith
    have t1 : l 0 * l 1 * l 2 ≤ l 0 * (1 + 1 / 1000) * 4 :=
      mul_le_mul (mul_le_mul_of_nonneg_left u1 pos0) u2 pos2 (by positivity)
    linarith
  have near : ∀ c : ℝ, 0 ≤ c → c ≤ 1 → ∀ x : V3, |((V + c • outer b m) *ᵥ x) ⬝ᵥ ((V + c • outer b m) *ᵥ x) -
      ((V + c • vecMulVec a n) *ᵥ x) ⬝ᵥ ((V + c • vecMulVec a n) *ᵥ x)| ≤ 3 / 10 ^ 8 * (x ⬝ᵥ x) := by
    intro c c0 c1
    have ha4 := shear_bound sV sW ha.exact
    have hn1 : ∀ i, |n i| ≤ 1 := entry_of_dot (by norm_num) (by rw [ha.exact.unit]; norm_num)
    refine form_close (fun i j => ?_) (fun i j => ?_)
    · have e : (V + c • outer b m) i j - (V + c • vecMulVec a n) i j = c * (b i * m j - a i * n j) := by
        simp only [outer_eq, Matrix.add_apply, Matrix.smul_apply, vecMulVec_apply, smul_eq_mul]
        ring
      rw [e, abs_mul, abs_of_nonneg c0]
      calc c * |b i * m j - a i * n j| ≤ 1 * (26 / 10 ^ 11) :=
            mul_le_mul c1 (outer_round ha4 hn1 ha.shear ha.normal i j) (abs_nonneg _) (by norm_num)
        _ = 26 / 10 ^ 11 := one_mul _
    · have e1 : |V i j| ≤ 2 := by
        have t : |V i j - (1 : Mat3) i j| ≤ 13 / 100 := (Finset.single_le_sum (f := fun j => |V i j - (1 : Mat3) i j|) (fun _ _ => abs_nonneg _)
          (Finset.mem_univ j)).trans (sV.near i)
        have t1 : |(1 : Mat3) i j| ≤ 1 := by
          rw [Matrix.one_apply]; split_ifs <;> norm_num
        have t2 := abs_add_le (V i j - (1 : Mat3) i j) ((1 : Mat3) i j)
        rw [sub_add_cancel] at t2
        linarith
      have e2 : |c * (a i * n j)| ≤ 1 * (4 * 1) := by
        rw [abs_mul, abs_mul, abs_of_nonneg c0]
        exact mul_le_mul c1 (mul_le_mul (ha4 i) (hn1 j) (abs_nonneg _) (by norm_num)) (by positivity) (by norm_num)
      have e3 : (V + c • vecMulVec a n) i j = V i j + c * (a i * n j) := by
        simp only [Matrix.add_apply, Matrix.smul_apply, vecMulVec_apply, smul_eq_mul]
      rw [e3]
      have := abs_add_le (V i j) (c * (a i * n j))
      linarith
  obtain ⟨R₁, b₁, m₁, R₂, b₂, m₂, r1, r2, r3, d1⟩ := am_near eig heig hl hg hee clow c0 c1 c2 u2 (near f h0 h1)
  obtain ⟨R₃, b₃, m₃, R₄, b₄, m₄, r4, r5, r6, d2⟩ := am_near eig heig hl' hg hee clow c0 c1 c2 u2
    (near (1 - f) (by linarith) (by linarith))
  refine ⟨(R₁, b₁, m₁), (R₂, b₂, m₂), (R₃, b₃, m₃), (R₄, b₄, m₄), ?_, ?_, ?_, d1, d2⟩
  rotate_left
  · rintro x hx
    simp only [List.mem_cons, List.not_mem_nil, or_false] at hx
    rcases hx with rfl | rfl
    exacts [r2, r3]
  · rintro x hx
    simp only [List.mem_cons, List.not_mem_nil, or_false] at hx
    rcases hx with rfl | rfl
    exacts [r5, r6]
  unfold habitStep mixMetric
  simp only [r1, r4]
  rfl

/-- **C118** `habitplanes()` for two variants with a twin axis, whether compound or of types I and II.  There are two exact twins.
Whenever `volumefrac()` gives fractions strictly between 0 and 1 for both, and the exact laminates with these fractions shorten some
vectors and lengthen some, with changes of the squares of the lengths of at least `g ≥ 1/500`, eight triples are returned, and all
are habit planes of these laminates up to an error of `1e-9/g² + 1e-7`.  The two planes of each laminate are different. -/
theorem C118_habitplanes (eig : Mat3 → EigRes) (heig : ∀ A, Aᵀ = A → EigOK (eig A).vals (eig A).vecs A)
    (rnd : ℝ → ℝ) (hr : ∀ x, |rnd x - x| ≤ 5 / 10 ^ 11)
    (h : SmallStretch U) (hc : ClearSymmetry U) {vs : List Mat3} (hvs : Mart.getVariants t ⟨some U, cubicR⟩ = .ok vs)
    (ht : t = .code ∨ t = .exact) (hV : V ∈ vs) (hW : W ∈ vs) (hne : V ≠ W) {n : V3} (hn : IsTwinAxis V W n)
    (hy : ClearlyNotPrincipal V (crossDirection V n) ∨ IsPrincipal V (crossDirection V n)) (skip : Bool) :
    ∃ P E₁ a₁ n₁ E₂ a₂ n₂, TwinPair.new eig V W skip = .ok P ∧ SolvesTwin V W E₁ a₁ n₁ ∧ SolvesTwin V W E₂ a₂ n₂ ∧
      (∀ Q a n, SolvesTwin V W Q a n → (Q = E₁ ∧ SameUpToSign a₁ n₁ a n) ∨ (Q = E₂ ∧ SameUpToSign a₂ n₂ a n)) ∧
      ∃ F₁ F₂, P.volumeFrac eig t rnd false = .ok (F₁, F₂) ∧ AccurateFraction V a₁ n₁ F₁ ∧ AccurateFraction V a₂ n₂ F₂ ∧
      ∀ f₁ f₂ g : ℝ, F₁ = some f₁ → F₂ = some f₂ → 0 < f₁ → f₁ < 1 → 0 < f₂ → f₂ < 1 → 1 / 500 ≤ g →
        StretchesBothWays (V + f₁ • vecMulVec a₁ n₁) g → StretchesBothWays (V + f₂ • vecMulVec a₂ n₂) g →
        ∀ ty, ty ≠ .other → ∃ x₁ x₂ x₃ x₄ x₅ x₆ x₇ x₈ : Mat3 × V3 × V3,
          P.habitPlanes eig t rnd false ty =
            .ok [some x₁, some x₂, some x₃, some x₄, some x₅, some x₆, some x₇, some x₈] ∧
          (∀ x ∈ [x₁, x₂], ApproxHabit (V + f₁ • vecMulVec a₁ n₁) (1 / 10 ^ 9 / g ^ 2 + 1 / 10 ^ 7) x.1 x.2.1 x.2.2) ∧
          (∀ x ∈ [x₃, x₄], ApproxHabit (V + (1 - f₁) • vecMulVec a₁ n₁) (1 / 10 ^ 9 / g ^ 2 + 1 / 10 ^ 7) x.1 x.2.1 x.2.2) ∧
          (∀ x ∈ [x₅, x₆], ApproxHabit (V + f₂ • vecMulVec a₂ n₂) (1 / 10 ^ 9 / g ^ 2 + 1 / 10 ^ 7) x.1 x.2.1 x.2.2) ∧
          (∀ x ∈ [x₇, x₈], ApproxHabit (V + (1 - f₂) • vecMulVec a₂ n₂) (1 / 10 ^ 9 / g ^ 2 + 1 / 10 ^ 7) x.1 x.2.1 x.2.2) ∧
          |x₁.2.2 ⬝ᵥ x₂.2.2| ≤ 1 - g / 4 ∧ |x₃.2.2 ⬝ᵥ x₄.2.2| ≤ 1 - g / 4 ∧ |x₅.2.2 ⬝ᵥ x₆.2.2| ≤ 1 - g / 4 ∧
          |x₇.2.2 ⬝ᵥ x₈.2.2| ≤ 1 - g / 4 := by
  obtain ⟨iV, iW, -⟩ := variant_of h hc hvs ht hV hW
  have sV := image_small h iV
  have sW := image_small h iW
  obtain ⟨P, E₁, a₁, n₁, E₂, a₂, n₂, Q₁, b₁, m₁, Q₂, b₂, m₂, r1, r2, r3, r4, r5⟩ :=
    C115_twinparam eig heig rnd hr h hc hvs ht hV hW hne hn hy skip
  have hU : P.Ui = V := by
    rw [new_ok eig (small_spd sV) (small_spd sW)] at r1
    cases r1
    rfl
  have hrel : Related V W := ⟨_, halfTurn_rotation hn.1, hn.2.symm⟩
  have key : ∀ {E a n Q b m}, Approximates V W E a n Q b m → AccurateFraction V a n (solveF V b m) := by
    intro E a n Q b m ha
    refine accurate_of sV.symmetric (interface_ends sV.symmetric sW.symmetric hrel ha.exact) ?_
    rw [cofVal_eq, cofVal_eq]
    exact cofactor_round sV (shear_bound sV sW ha.exact)
      (entry_of_dot (by norm_num) (by rw [ha.exact.unit]; norm_num)) ha.shear ha.normal
  have hvf : P.volumeFrac eig t rnd false = .ok (solveF V b₁ m₁, solveF V b₂ m₂) := by
    simp only [TwinPair.volumeFrac, r2, hU, fracOf]
  refine ⟨P, E₁, a₁, n₁, E₂, a₂, n₂, r1, r3.exact, r4.exact, r5, _, _, hvf, key r3, key r4, ?_⟩
  intro f₁ f₂ g e1 e2 p1 q1 p2 q2 hg s1 s2 ty hty
  have det : ∀ {a n : V3} {F : Option ℝ} {f : ℝ}, AccurateFraction V a n F → F = some f → 0 < f → f < 1 →
      |interfaceDet V a n f| ≤ 1 / 10 ^ 9 := by
    intro a n F f ha hF h0 h1
    rcases (ha.sound f hF).2.2 with h | ⟨h, -⟩ | ⟨h, -⟩
    · exact h
    · exact absurd h h1.ne
    · exact absurd h h0.ne'
  obtain ⟨x₁, x₂, x₃, x₄, t1, t2, t3, d1, d2⟩ := step_near eig heig sV sW hrel r3 p1.le q1.le (det (key r3) e1 p1 q1) hg s1
  obtain ⟨x₅, x₆, x₇, x₈, t4, t5, t6, d3, d4⟩ := step_near eig heig sV sW hrel r4 p2.le q2.le (det (key r4) e2 p2 q2) hg s2
  refine ⟨x₁, x₂, x₃, x₄, x₅, x₆, x₇, x₈, ?_, t2, t3, t5, t6, d1, d2, d3, d4⟩
  rw [e1, e2] at hvf
  unfold TwinPair.habitPlanes TwinPair.isCompat
  rw [hU]
  cases ty
  case other => exact absurd rfl hty
  all_goals
    simp only [hvf, r2, t1, t4, Option.isSome_some, Bool.or_self]
    rfl

/-! ### tetragonal stretches -/

theorem tetra_bothWays {α γ : ℝ} (hα : 0 < α) (hγ : 0 < γ) (hne : α ≠ γ) {i j : Fin 3} (hij : i ≠ j) {Q : Mat3} {a n : V3}
    (h : SolvesTwin (tetraStretch α γ i) (tetraStretch α γ j) Q a n) {g : ℝ}
    (hg : α ^ 2 ≤ 1 - g ∧ 1 + g ≤ (α ^ 2 + γ ^ 2) / 2 ∨ (α ^ 2 + γ ^ 2) / 2 ≤ 1 - g ∧ 1 + g ≤ α ^ 2) (f : ℝ) :
    StretchesBothWays (tetraStretch α γ i + f • vecMulVec a n) g := by
  obtain ⟨σ, τ, hσ, hτ, -, hn⟩ := tetra_solutions hα hγ hne hij h
  have hσ2 : σ * σ = 1 := by rcases hσ with h | h <;> rw [h] <;> norm_num
  obtain ⟨k, hki, hkj, -, third⟩ := third i j hij
  have s2 : Real.sqrt 2 * Real.sqrt 2 = 2 := Real.mul_self_sqrt (by norm_num)
  have keep : ∀ v : V3, n ⬝ᵥ v = 0 → (tetraStretch α γ i + f • vecMulVec a n) *ᵥ v = tetraStretch α γ i *ᵥ v := fun v hv => by
    rw [add_mulVec, smul_mulVec, vecMulVec_mulVec, op_smul_eq_smul, hv, zero_smul, smul_zero, add_zero]
  have u1 : (Pi.single k 1 : V3) ⬝ᵥ Pi.single k 1 = 1 := by simp
  have k1 : n ⬝ᵥ (Pi.single k 1 : V3) = 0 := by
    rw [hn]; simp [diagonalNormal, hki, hkj]
  have l1 : ((tetraStretch α γ i + f • vecMulVec a n) *ᵥ (Pi.single k 1 : V3)) ⬝ᵥ
      ((tetraStretch α γ i + f • vecMulVec a n) *ᵥ (Pi.single k 1 : V3)) = α ^ 2 := by
    rw [keep _ k1, tetraStretch]
    simp [hki, pow_two]
  have u2 := diagonalNormal_unit hij (σ := -σ) (by linarith)
  have k2 : n ⬝ᵥ diagonalNormal i j (-σ) = 0 := by
    rw [hn, smul_dotProduct, dotProduct, third]
    simp only [diagonalNormal, if_true, if_neg hij.symm, if_neg hki, if_neg hkj, zero_div, mul_zero, add_zero, smul_eq_mul]
    have e : (1 : ℝ) / Real.sqrt 2 * (1 / Real.sqrt 2) + σ / Real.sqrt 2 * (-σ / Real.sqrt 2) =
      (1 - σ * σ) / (Real.sqrt 2 * Real.sqrt 2) := by ring
    rw [e, hσ2]
    simp
  have l2 : ((tetraStretch α γ i + f • vecMulVec a n) *ᵥ diagonalNormal i j (-σ)) ⬝ᵥ
      ((tetraStretch α γ i + f • vecMulVec a n) *ᵥ diagonalNormal i j (-σ)) = (α ^ 2 + γ ^ 2) / 2 := by
    rw [keep _ k2, tetraStretch, dotProduct, third]
    simp only [mulVec_diagonal, diagonalNormal, if_true, if_neg hij.symm, if_neg hki, if_neg hkj, zero_div, mul_zero, add_zero]
    have e : γ * (1 / Real.sqrt 2) * (γ * (1 / Real.sqrt 2)) + α * (-σ / Real.sqrt 2) * (α * (-σ / Real.sqrt 2)) =
      (α ^ 2 * (σ * σ) + γ ^ 2) / (Real.sqrt 2 * Real.sqrt 2) := by ring
    rw [e, hσ2, s2, mul_one]
  rcases hg with ⟨h1, h2⟩ | ⟨h1, h2⟩
  · exact ⟨⟨_, u1, by rw [l1]; exact h1⟩, _, u2, by rw [l2]; exact h2⟩
  · exact ⟨⟨_, u2, by rw [l2]; exact h1⟩, _, u1, by rw [l1]; exact h2⟩

/-- **C118**, tetragonal stretches: if the fraction `λ` of the closed formula is at least `d` away from 1/2 and 1 and the numbers `α²` and
`(α² + γ²)/2` are on different sides of 1 and at least `g` away from it, then `habitplanes()` returns eight triples, for fractions at
most `2e-10/(s d)` away from `λ`, with the error `1e-9/g² + 1e-7`. -/
theorem C118_tetragonal (eig : Mat3 → EigRes) (heig : ∀ A, Aᵀ = A → EigOK (eig A).vals (eig A).vecs A)
    (rnd : ℝ → ℝ) (hr : ∀ x, |rnd x - x| ≤ 5 / 10 ^ 11) {α γ : ℝ} (hα : |α - 1| ≤ 13 / 100) (hγ : |γ - 1| ≤ 13 / 100)
    (h : 2 / 10 ^ 4 ≤ |α - γ|) (ht : t = .code ∨ t = .exact) {i j : Fin 3} (hij : i ≠ j) {s d g : ℝ}
    (hs : 2 * s = |α ^ 2 - 1| * ((α ^ 2 - γ ^ 2) ^ 2 / (α ^ 2 + γ ^ 2))) (hd : 2 / 10 ^ 6 ≤ d) (hsd : 1 / 10 ^ 9 ≤ s * d ^ 2)
    (h1 : 1 / 2 + d ≤ laminateFraction α γ) (h2 : laminateFraction α γ ≤ 1 - d) (hg : 1 / 500 ≤ g)
    (hag : α ^ 2 ≤ 1 - g ∧ 1 + g ≤ (α ^ 2 + γ ^ 2) / 2 ∨ (α ^ 2 + γ ^ 2) / 2 ≤ 1 - g ∧ 1 + g ≤ α ^ 2)
    (skip : Bool) (ty : TwinType) (hty : ty ≠ .other) :
    ∃ P E₁ a₁ n₁ E₂ a₂ n₂ f₁ f₂, ∃ x₁ x₂ x₃ x₄ x₅ x₆ x₇ x₈ : Mat3 × V3 × V3,
      TwinPair.new eig (tetraStretch α γ i) (tetraStretch α γ j) skip = .ok P ∧
      P.volumeFrac eig t rnd false = .ok (some f₁, some f₂) ∧
      |f₁ - laminateFraction α γ| ≤ 2 / 10 ^ 10 / (s * d) ∧ |f₂ - laminateFraction α γ| ≤ 2 / 10 ^ 10 / (s * d) ∧
      SolvesTwin (tetraStretch α γ i) (tetraStretch α γ j) E₁ a₁ n₁ ∧ SolvesTwin (tetraStretch α γ i) (tetraStretch α γ j) E₂ a₂ n₂ ∧
      (∀ Q a n, SolvesTwin (tetraStretch α γ i) (tetraStretch α γ j) Q a n →
        (Q = E₁ ∧ SameUpToSign a₁ n₁ a n) ∨ (Q = E₂ ∧ SameUpToSign a₂ n₂ a n)) ∧
      P.habitPlanes eig t rnd false ty = .ok [some x₁, some x₂, some x₃, some x₄, some x₅, some x₆, some x₇, some x₈] ∧
      (∀ x ∈ [x₁, x₂], ApproxHabit (tetraStretch α γ i + f₁ • vecMulVec a₁ n₁) (1 / 10 ^ 9 / g ^ 2 + 1 / 10 ^ 7) x.1 x.2.1 x.2.2) ∧
      (∀ x ∈ [x₃, x₄], ApproxHabit (tetraStretch α γ i + (1 - f₁) • vecMulVec a₁ n₁) (1 / 10 ^ 9 / g ^ 2 + 1 / 10 ^ 7) x.1 x.2.1 x.2.2) ∧
      (∀ x ∈ [x₅, x₆], ApproxHabit (tetraStretch α γ i + f₂ • vecMulVec a₂ n₂) (1 / 10 ^ 9 / g ^ 2 + 1 / 10 ^ 7) x.1 x.2.1 x.2.2) ∧
      (∀ x ∈ [x₇, x₈],
        ApproxHabit (tetraStretch α γ i + (1 - f₂) • vecMulVec a₂ n₂) (1 / 10 ^ 9 / g ^ 2 + 1 / 10 ^ 7) x.1 x.2.1 x.2.2) ∧
      |x₁.2.2 ⬝ᵥ x₂.2.2| ≤ 1 - g / 4 ∧ |x₃.2.2 ⬝ᵥ x₄.2.2| ≤ 1 - g / 4 ∧ |x₅.2.2 ⬝ᵥ x₆.2.2| ≤ 1 - g / 4 ∧
      |x₇.2.2 ⬝ᵥ x₈.2.2| ≤ 1 - g / 4 := by
  have hc := tetra_clearly hα hγ h
  obtain ⟨pα, pγ⟩ := clearly_pos hc
  have hne := clearly_ne hc
  obtain ⟨vs, hvs, -, -, -, hmem⟩ := C101_variants ht hc i
  obtain ⟨P, E₁, a₁, n₁, E₂, a₂, n₂, r1, r3, r5, r7, F₁, F₂, r2, -, -, r8⟩ := C118_habitplanes eig heig rnd hr
    (tetra_smallStretch hα hγ i) (tetra_clearSymmetry h i) hvs ht ((hmem _).2 ⟨i, rfl⟩) ((hmem _).2 ⟨j, rfl⟩)
    (fun e => hij (tetraStretch_inj hne e)) (diagonal_axis hij (.inl rfl)) (.inr (tetra_cross α γ hij 1)) skip
  obtain ⟨P', f₁, f₂, q1, q2, q3, q4⟩ := C116_tetragonal eig heig rnd hr hα hγ h ht hij hs hd hsd h1 h2 skip
  rw [r1] at q1
  cases q1
  rw [r2] at q2
  cases q2
  have hd0 : 0 < d := lt_of_lt_of_le (by norm_num) hd
  have small : 2 / 10 ^ 10 / (s * d) ≤ d / 5 := by
    have hs0 : 0 < s := by
      by_contra hn
      have := mul_nonpos_of_nonpos_of_nonneg (not_lt.1 hn) (pow_two_nonneg d)
      norm_num only at hsd
      linarith
    rw [div_le_iff₀ (mul_pos hs0 hd0)]
    norm_num only at hsd ⊢
    nlinarith
  have g1 := abs_le.1 (q3.trans small)
  have g2 := abs_le.1 (q4.trans small)
  obtain ⟨x₁, x₂, x₃, x₄, x₅, x₆, x₇, x₈, t0, t1, t2, t3, t4⟩ := r8 f₁ f₂ g rfl rfl (by linarith) (by linarith) (by linarith)
    (by linarith) hg (tetra_bothWays pα pγ hne hij r3 hag f₁) (tetra_bothWays pα pγ hne hij r5 hag f₂) ty hty
  exact ⟨P, E₁, a₁, n₁, E₂, a₂, n₂, f₁, f₂, x₁, x₂, x₃, x₄, x₅, x₆, x₇, x₈, r1, r2, q3, q4, r3, r5, r7, t0, t1, t2, t3, t4⟩

/-! ## The hypotheses are met -/

/-- The stretches 0.99 and 1.05, with the rounding of the code: eight habit planes, and the error is at most 4e-6. -/
example (eig : Mat3 → EigRes) (heig : ∀ A, Aᵀ = A → EigOK (eig A).vals (eig A).vecs A) :
    ∃ P E a n f, ∃ x₁ x₂ x₃ x₄ x₅ x₆ x₇ x₈ : Mat3 × V3 × V3, ∃ δ ≤ 4 / 10 ^ 6,
      TwinPair.new eig (tetraStretch 0.99 1.05 0) (tetraStretch 0.99 1.05 1) false = .ok P ∧
      SolvesTwin (tetraStretch 0.99 1.05 0) (tetraStretch 0.99 1.05 1) E a n ∧ |f - laminateFraction 0.99 1.05| ≤ 1 / 10 ^ 4 ∧
      P.habitPlanes eig .code rnd10 false .C = .ok [some x₁, some x₂, some x₃, some x₄, some x₅, some x₆, some x₇, some x₈] ∧
      ApproxHabit (tetraStretch 0.99 1.05 0 + f • vecMulVec a n) δ x₁.1 x₁.2.1 x₁.2.2 := by
  have ho : fractionOffset 0.99 1.05 ∈ Set.Icc ((1 / 10) ^ 2 : ℝ) ((2 / 5) ^ 2) := by
    rw [fractionOffset]
    constructor <;> norm_num
  have hl : Real.sqrt (fractionOffset 0.99 1.05) ∈ Set.Icc (1 / 10 : ℝ) (2 / 5) :=
    ⟨Real.le_sqrt_of_sq_le ho.1, Real.sqrt_le_iff.2 ⟨by norm_num, ho.2⟩⟩
  obtain ⟨P, E₁, a₁, n₁, -, -, -, f₁, -, x₁, x₂, x₃, x₄, x₅, x₆, x₇, x₈, r1, -, r3, -, r4, -, -, r5, r6, -⟩ :=
    C118_tetragonal eig heig rnd10 C55_rounding (α := 0.99) (γ := 1.05) (t := .code)
    (by norm_num [abs_of_neg]) (by norm_num [abs_of_pos]) (by norm_num [abs_of_neg]) (.inl rfl) (i := 0) (j := 1) (by decide)
    (s := |0.99 ^ 2 - 1| * ((0.99 ^ 2 - 1.05 ^ 2) ^ 2 / (0.99 ^ 2 + 1.05 ^ 2)) / 2) (d := 1 / 10) (g := 1 / 60) (by ring) (by norm_num)
    (by norm_num [abs_of_neg]) (by rw [laminateFraction]; linarith [hl.1]) (by rw [laminateFraction]; linarith [hl.2])
    (by norm_num) (.inl (by norm_num)) false .C (by simp)
  refine ⟨P, E₁, a₁, n₁, f₁, x₁, x₂, x₃, x₄, x₅, x₆, x₇, x₈, _, ?_, r1, r4, r3.trans ?_, r5, r6 x₁ (by simp)⟩
  · norm_num
  · norm_num [abs_of_neg]

end Verif.Props
