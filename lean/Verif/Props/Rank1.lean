import Mathlib.LinearAlgebra.Matrix.Charpoly.Coeff
import Verif.Lemmas.Rank1
import Verif.Props.Martensite

/-!
# C57, C58: habit planes and rank-one compatibility

`eig` is any eigenvalue routine that keeps its promise (`EigOK`) on symmetric matrices; `exists_eig`
(`Verif.Lemmas.Rank1`) shows that there is one.
-/

namespace Verif.Props

open Matrix Verif.Model Verif.Spec Verif.Lemmas

local notation "Mat3" => Matrix (Fin 3) (Fin 3) ℝ

theorem spd_eigen_pos {C : Mat3} (hC : IsSPD C) {l : Fin 3 → ℝ} (h : IsEigenvalues C l) (i : Fin 3) :
    0 < l i := by
  have hp := posDef_of_spd hC
  have h0 := eigenvalues_nonneg hp.posSemidef h
  have hd := det_three h
  have hne : l 0 * l 1 * l 2 ≠ 0 := by rw [← hd]; exact (spd_det_pos hC).ne'
  refine lt_of_le_of_ne (h0 i) fun hi => hne ?_
  fin_cases i <;> simp at hi <;> rw [← hi] <;> ring

theorem posDefSym_of_spd {C : Mat3} (hC : IsSPD C) : posDefSym C := by
  refine ⟨spd_det_pos hC, ?_⟩
  rw [hC.1, sub_self, fnorm]
  norm_num

theorem sqrt_lt_small {x : ℝ} : Real.sqrt x < small ↔ x < 1 / 10 ^ 24 := by
  rw [Real.sqrt_lt' (by norm_num [small]), small]
  norm_num

/-- What the solvers work with, for a symmetric positive definite `C` with middle eigenvalue one. -/
theorem sorted_eq {eig : Mat3 → EigRes} {C : Mat3} (heig : EigOK (eig C).vals (eig C).vecs C) {l : Fin 3 → ℝ}
    (hl : SortedEigenvalues C l) :
    EigOK (sortEig eig C).vals (sortEig eig C).vecs C ∧ (sortEig eig C).vals = l := by
  obtain ⟨h1, h2⟩ := sortEig_spec heig
  exact ⟨h1, sorted_unique ⟨h2, h1.eigenvalues⟩ hl⟩

theorem core_solves {eig : Mat3 → EigRes} {C : Mat3} (heig : EigOK (eig C).vals (eig C).vecs C)
    (hC : IsSPD C) {l : Fin 3 → ℝ} (hl : SortedEigenvalues C l) (h1 : l 1 = 1) (h02 : l 0 < l 2)
    {s : ℝ} (hs : s * s = 1) {c1 c3 : ℝ} (hc1 : c1 = Real.sqrt (1 - l 0)) (hc3 : c3 = Real.sqrt (l 2 - 1)) :
    amM (sortEig eig C) (Real.sqrt (l 2 - l 0)) c1 c3 s ≠ 0 ∧
    SolvesRankOne C (amPair (sortEig eig C) (Real.sqrt (l 2 - l 0)) c1 c3 s).1
      (amPair (sortEig eig C) (Real.sqrt (l 2 - l 0)) c1 c3 s).2 ∧
    0 < 1 + (amPair (sortEig eig C) (Real.sqrt (l 2 - l 0)) c1 c3 s).2 ⬝ᵥ
      (amPair (sortEig eig C) (Real.sqrt (l 2 - l 0)) c1 c3 s).1 := by
  obtain ⟨he, hv⟩ := sorted_eq heig hl
  have h01 : l 0 ≤ l 1 := hl.1 (by decide)
  have h12 : l 1 ≤ l 2 := hl.1 (by decide)
  have hp := spd_eigen_pos hC hl.2 0
  refine am_solves hC.1 he ?_ ?_ ?_ ?_ ?_ hs ?_ ?_ ?_ <;> rw [hv]
  · exact h1
  · exact hp
  · exact h02
  · linarith
  · linarith
  · exact hc1
  · exact hc3

theorem abs_one_sub {l : Fin 3 → ℝ} (hl : Monotone l) (h1 : l 1 = 1) :
    |1 - l 0| = 1 - l 0 ∧ |l 2 - 1| = l 2 - 1 := by
  have h01 : l 0 ≤ l 1 := hl (by decide)
  have h12 : l 1 ≤ l 2 := hl (by decide)
  exact ⟨abs_of_nonneg (by linarith), abs_of_nonneg (by linarith)⟩

/-- **C57**, `solve_rank1`: for every symmetric positive definite `C` with middle eigenvalue one the two
returned pairs solve the equation; nothing is returned exactly if the extreme eigenvalues differ by less
than `1e-24`. -/
theorem C57_solve_rank1 (eig : Mat3 → EigRes) (heig : ∀ A, Aᵀ = A → EigOK (eig A).vals (eig A).vecs A)
    (C : Mat3) (hC : IsSPD C) (l : Fin 3 → ℝ) (hl : SortedEigenvalues C l) (h1 : l 1 = 1) :
    (l 2 - l 0 < 1 / 10 ^ 24 → solveRank1 eig C = .ok .nothing) ∧
    (1 / 10 ^ 24 ≤ l 2 - l 0 → ∃ b₁ m₁ b₂ m₂, solveRank1 eig C = .ok (.two (b₁, m₁) (b₂, m₂)) ∧
      SolvesRankOne C b₁ m₁ ∧ SolvesRankOne C b₂ m₂) := by
  have hv := (sorted_eq (heig C hC.1) hl).2
  have hab := abs_one_sub hl.1 h1
  have hpd := posDefSym_of_spd hC
  constructor
  · intro h
    simp only [solveRank1, hv]
    rw [if_neg (not_not.2 hpd), if_pos (sqrt_lt_small.2 h)]
  · intro h
    have h02 : l 0 < l 2 := by have : (0 : ℝ) < 1 / 10 ^ 24 := by norm_num
                               linarith
    have k1 := core_solves (heig C hC.1) hC hl h1 h02 (s := 1) (by norm_num) rfl rfl
    have k2 := core_solves (heig C hC.1) hC hl h1 h02 (s := -1) (by norm_num) rfl rfl
    refine ⟨_, _, _, _, ?_, k1.2.1, k2.2.1⟩
    simp only [solveRank1, hv, hab.1, hab.2]
    rw [if_neg (not_not.2 hpd), if_neg (by rw [sqrt_lt_small]; exact not_lt.2 h), if_neg]
    have p0 := spd_eigen_pos hC hl.2 0
    have p2 := spd_eigen_pos hC hl.2 2
    rintro (h | h | h | h)
    · linarith
    · linarith
    · exact k1.1 h
    · exact k2.1 h

/-- **C57**, `AM_Solver`: the same, with the threshold `1e-12` for the difference of the eigenvalues. -/
theorem C57_am_solver (eig : Mat3 → EigRes) (heig : ∀ A, Aᵀ = A → EigOK (eig A).vals (eig A).vecs A)
    (C : Mat3) (hC : IsSPD C) (l : Fin 3 → ℝ) (hl : SortedEigenvalues C l) (h1 : l 1 = 1) :
    (l 2 - l 0 < 1 / 10 ^ 12 → amSolver eig C = .ok .nothing) ∧
    (1 / 10 ^ 12 ≤ l 2 - l 0 → ∃ b₁ m₁ b₂ m₂, amSolver eig C = .ok (.two (b₁, m₁) (b₂, m₂)) ∧
      SolvesRankOne C b₁ m₁ ∧ SolvesRankOne C b₂ m₂) := by
  have hv := (sorted_eq (heig C hC.1) hl).2
  have h01 : l 0 ≤ l 1 := hl.1 (by decide)
  have h12 : l 1 ≤ l 2 := hl.1 (by decide)
  have hsym : ¬ (1 / 10 ^ 9 < fnorm (Cᵀ - C)) := by
    rw [hC.1, sub_self, fnorm]
    norm_num
  have hneg : ¬ (l 2 - l 0 < 0 ∨ 1 - l 0 < 0 ∨ l 2 - 1 < 0) := by
    rintro (h | h | h) <;> linarith
  have hthr : ∀ x : ℝ, Real.sqrt x < 1 / 10 ^ 6 ↔ x < 1 / 10 ^ 12 := by
    intro x
    rw [Real.sqrt_lt' (by norm_num)]
    norm_num
  constructor
  · intro h
    simp only [amSolver, hv]
    rw [if_neg hsym, if_neg hneg, if_pos ((hthr _).2 h)]
  · intro h
    have h02 : l 0 < l 2 := by have : (0 : ℝ) < 1 / 10 ^ 12 := by norm_num
                               linarith
    have k1 := core_solves (heig C hC.1) hC hl h1 h02 (s := 1) (by norm_num) rfl rfl
    have k2 := core_solves (heig C hC.1) hC hl h1 h02 (s := -1) (by norm_num) rfl rfl
    refine ⟨_, _, _, _, ?_, k1.2.1, k2.2.1⟩
    have p0 := spd_eigen_pos hC hl.2 0
    have p2 := spd_eigen_pos hC hl.2 2
    simp only [amSolver, hv]
    rw [if_neg hsym, if_neg hneg, if_neg (by rw [hthr]; exact not_lt.2 h), if_pos (by rw [h1]; norm_num),
      if_neg (by rintro (h | h) <;> linarith), if_neg (by rintro (h | h); exacts [k1.1 h, k2.1 h])]

/-! ### the square root formed by `_solve_am` -/

/-- The matrix with the given columns. -/
def ofCols (v : Fin 3 → V3) : Mat3 := Matrix.of fun i j => v j i

theorem ofCols_mulVec {A : Mat3} {v : Fin 3 → V3} {l : Fin 3 → ℝ} (h : ∀ i, A *ᵥ v i = l i • v i) :
    A * ofCols v = ofCols v * Matrix.diagonal l := by
  ext i j
  rw [Matrix.mul_diagonal]
  have := congrFun (h j) i
  rw [Matrix.mul_apply]
  simp only [Matrix.mulVec, dotProduct, Pi.smul_apply, smul_eq_mul] at this
  simp only [ofCols, Matrix.of_apply]
  rw [this, mul_comm]

/-- A function of a symmetric matrix is symmetric. -/
theorem fn_symm {A : Mat3} (hA : Aᵀ = A) {v : Fin 3 → V3} {l : Fin 3 → ℝ} (h : ∀ i, A *ᵥ v i = l i • v i)
    (hd : (ofCols v).det ≠ 0) (f : ℝ → ℝ) :
    (ofCols v * Matrix.diagonal (fun i => f (l i)) * (ofCols v)⁻¹)ᵀ =
      ofCols v * Matrix.diagonal (fun i => f (l i)) * (ofCols v)⁻¹ := by
  set V := ofCols v with hV
  have hu : IsUnit V.det := isUnit_iff_ne_zero.2 hd
  have hg : ∀ i j, l i ≠ l j → (Vᵀ * V) i j = 0 := by
    intro i j hij
    have := eig_orth hA (h i) (h j) hij
    rw [Matrix.mul_apply]
    simpa [hV, ofCols, dotProduct] using this
  have hs : (Vᵀ * V * Matrix.diagonal (fun i => f (l i)))ᵀ = Vᵀ * V * Matrix.diagonal (fun i => f (l i)) := by
    ext i j
    rw [Matrix.transpose_apply, Matrix.mul_diagonal, Matrix.mul_diagonal]
    have hsym : (Vᵀ * V) j i = (Vᵀ * V) i j := by
      rw [← Matrix.transpose_apply (Vᵀ * V), Matrix.transpose_mul, Matrix.transpose_transpose]
    rw [hsym]
    by_cases hij : l i = l j
    · rw [hij]
    · rw [hg i j hij, zero_mul, zero_mul]
  set D := Matrix.diagonal (fun i => f (l i)) with hD
  have hVi : V * V⁻¹ = 1 := Matrix.mul_nonsing_inv _ hu
  have hiV : V⁻¹ * V = 1 := Matrix.nonsing_inv_mul _ hu
  have hDt : Dᵀ = D := by rw [hD]; exact Matrix.diagonal_transpose _
  have hs' : D * (Vᵀ * V) = Vᵀ * V * D := by
    rw [← hs, Matrix.transpose_mul, hDt, Matrix.transpose_mul, Matrix.transpose_transpose]
  have hit : (V⁻¹)ᵀ * Vᵀ = 1 := by rw [← Matrix.transpose_mul, hVi, Matrix.transpose_one]
  rw [Matrix.transpose_mul, Matrix.transpose_mul, hDt]
  calc (V⁻¹)ᵀ * (D * Vᵀ) = (V⁻¹)ᵀ * (D * (Vᵀ * V)) * V⁻¹ := by
        simp only [Matrix.mul_assoc, hVi, Matrix.mul_one]
    _ = ((V⁻¹)ᵀ * Vᵀ) * (V * D * V⁻¹) := by rw [hs']; simp only [Matrix.mul_assoc]
    _ = V * D * V⁻¹ := by rw [hit, Matrix.one_mul]

theorem fn_mul {v : Fin 3 → V3} (hd : (ofCols v).det ≠ 0) (f g : Fin 3 → ℝ) :
    ofCols v * Matrix.diagonal f * (ofCols v)⁻¹ * (ofCols v * Matrix.diagonal g * (ofCols v)⁻¹) =
      ofCols v * Matrix.diagonal (fun i => f i * g i) * (ofCols v)⁻¹ := by
  have hiV : (ofCols v)⁻¹ * ofCols v = 1 := Matrix.nonsing_inv_mul _ (isUnit_iff_ne_zero.2 hd)
  rw [← Matrix.diagonal_mul_diagonal]
  calc _ = ofCols v * Matrix.diagonal f * ((ofCols v)⁻¹ * ofCols v) * Matrix.diagonal g * (ofCols v)⁻¹ := by
        simp only [Matrix.mul_assoc]
    _ = _ := by rw [hiV, Matrix.mul_one]; simp only [Matrix.mul_assoc]

theorem spd_of_gram {T : Mat3} (hT : T.det ≠ 0) : IsSPD (Tᵀ * T) := by
  refine ⟨gram_symm T, fun x hx => ?_⟩
  have h : x ⬝ᵥ (Tᵀ * T) *ᵥ x = (T *ᵥ x) ⬝ᵥ (T *ᵥ x) := by
    rw [← Matrix.mulVec_mulVec, Matrix.dotProduct_mulVec, Matrix.vecMul_transpose]
  rw [h]
  have h0 : T *ᵥ x ≠ 0 := by
    intro h0
    apply hx
    have := congrArg (fun y => T⁻¹ *ᵥ y) h0
    simpa [Matrix.mulVec_mulVec, Matrix.nonsing_inv_mul _ (isUnit_iff_ne_zero.2 hT)] using this
  refine lt_of_le_of_ne (Finset.sum_nonneg fun i _ => mul_self_nonneg _) fun hc => h0 ?_
  exact dotProduct_self_eq_zero.1 hc.symm

theorem eigSqrt_spec {C : Mat3} (hC : IsSPD C) {r : EigRes} (hr : EigOK r.vals r.vecs C)
    (hd : (ofCols r.vecs).det ≠ 0) : IsSPD (eigSqrt r) ∧ eigSqrt r * eigSqrt r = C := by
  have hpos := spd_eigen_pos hC hr.eigenvalues
  have hu : IsUnit (ofCols r.vecs).det := isUnit_iff_ne_zero.2 hd
  have hdef : eigSqrt r = ofCols r.vecs * Matrix.diagonal (fun i => Real.sqrt (r.vals i)) *
      (ofCols r.vecs)⁻¹ := rfl
  constructor
  · -- the fourth root
    set T := ofCols r.vecs * Matrix.diagonal (fun i => Real.sqrt (Real.sqrt (r.vals i))) *
      (ofCols r.vecs)⁻¹ with hT
    have hTs : Tᵀ = T := fn_symm hC.1 hr.eigenvector hd fun x => Real.sqrt (Real.sqrt x)
    have hTT : Tᵀ * T = eigSqrt r := by
      rw [hTs, hT, fn_mul hd, hdef]
      congr 3
      funext i
      exact Real.mul_self_sqrt (Real.sqrt_nonneg _)
    rw [← hTT]
    refine spd_of_gram ?_
    have hpr : ∏ i, Real.sqrt (Real.sqrt (r.vals i)) ≠ 0 :=
      Finset.prod_ne_zero_iff.2 fun i _ => (Real.sqrt_pos.2 (Real.sqrt_pos.2 (hpos i))).ne'
    rw [hT, Matrix.det_mul, Matrix.det_mul, Matrix.det_diagonal, Matrix.det_nonsing_inv,
      Ring.inverse_eq_inv']
    exact mul_ne_zero (mul_ne_zero hd hpr) (inv_ne_zero hd)
  · rw [hdef, fn_mul hd]
    have : (fun i => Real.sqrt (r.vals i) * Real.sqrt (r.vals i)) = r.vals := by
      funext i
      exact Real.mul_self_sqrt (hpos i).le
    rw [this, ← ofCols_mulVec hr.eigenvector, Matrix.mul_assoc, Matrix.mul_nonsing_inv _ hu, Matrix.mul_one]

/-- **C57**, `_solve_am`: as for `solve_rank1`; moreover the matrices `R` returned with the pairs are
rotations with `R S = 1 + b ⊗ m`, where `S` is the symmetric positive definite square root of `C`.  The
eigenvectors delivered by the eigenvalue routine must be independent (otherwise `LinAlgError`). -/
theorem C57_solve_am (eig : Mat3 → EigRes) (heig : ∀ A, Aᵀ = A → EigOK (eig A).vals (eig A).vecs A)
    (C : Mat3) (hC : IsSPD C) (l : Fin 3 → ℝ) (hl : SortedEigenvalues C l) (h1 : l 1 = 1) :
    (l 2 - l 0 < 1 / 10 ^ 24 → solveAm eig C = .ok .nothing) ∧
    (1 / 10 ^ 24 ≤ l 2 - l 0 → LinearIndependent ℝ (eig C).vecs →
      ∃ R₁ b₁ m₁ R₂ b₂ m₂ S, solveAm eig C = .ok (.two (R₁, b₁, m₁) (R₂, b₂, m₂)) ∧
      SolvesRankOne C b₁ m₁ ∧ SolvesRankOne C b₂ m₂ ∧ IsSPD S ∧ S * S = C ∧
      IsRotation R₁ ∧ R₁ * S = 1 + vecMulVec b₁ m₁ ∧ IsRotation R₂ ∧ R₂ * S = 1 + vecMulVec b₂ m₂) := by
  have hv := (sorted_eq (heig C hC.1) hl).2
  have hab := abs_one_sub hl.1 h1
  have hpd := posDefSym_of_spd hC
  constructor
  · intro h
    simp only [solveAm, hv]
    rw [if_neg (not_not.2 hpd), if_pos (sqrt_lt_small.2 h)]
  · intro h hli
    have h02 : l 0 < l 2 := by have : (0 : ℝ) < 1 / 10 ^ 24 := by norm_num
                               linarith
    have hd : (ofCols (eig C).vecs).det ≠ 0 := by
      have : (ofCols (eig C).vecs)ᵀ = Matrix.of (eig C).vecs := rfl
      rw [← Matrix.det_transpose, this]
      intro h0
      have hrow := (Matrix.linearIndependent_rows_iff_isUnit (A := Matrix.of (eig C).vecs)).1 hli
      rw [Matrix.isUnit_iff_isUnit_det, h0] at hrow
      exact not_isUnit_zero hrow
    obtain ⟨hS, hSS⟩ := eigSqrt_spec hC (heig C hC.1) hd
    have hSd : (eigSqrt (eig C)).det ≠ 0 := (spd_det_pos hS).ne'
    have k1 := core_solves (heig C hC.1) hC hl h1 h02 (s := 1) (by norm_num) rfl rfl
    have k2 := core_solves (heig C hC.1) hC hl h1 h02 (s := -1) (by norm_num) rfl rfl
    have rot : ∀ b m : V3, SolvesRankOne C b m → 0 < 1 + m ⬝ᵥ b →
        IsRotation ((1 + outer b m) * (eigSqrt (eig C))⁻¹) ∧
        (1 + outer b m) * (eigSqrt (eig C))⁻¹ * eigSqrt (eig C) = 1 + vecMulVec b m := by
      intro b m hb hbm
      constructor
      · refine rotation_of_gram hSd ?_ ?_
        · rw [outer_eq, dyad_transpose, hb.2, hS.1, hSS]
        · rw [outer_eq, det_one_add_dyad]
          exact mul_pos hbm (spd_det_pos hS)
      · rw [Matrix.mul_assoc, Matrix.nonsing_inv_mul _ (isUnit_iff_ne_zero.2 hSd), Matrix.mul_one, outer_eq]
    refine ⟨_, _, _, _, _, _, eigSqrt (eig C), ?_, k1.2.1, k2.2.1, hS, hSS, (rot _ _ k1.2.1 k1.2.2).1,
      (rot _ _ k1.2.1 k1.2.2).2, (rot _ _ k2.2.1 k2.2.2).1, (rot _ _ k2.2.1 k2.2.2).2⟩
    have p0 := spd_eigen_pos hC hl.2 0
    have p2 := spd_eigen_pos hC hl.2 2
    simp only [solveAm, hv, hab.1, hab.2]
    rw [if_neg (not_not.2 hpd), if_neg (by rw [sqrt_lt_small]; exact not_lt.2 h),
      if_neg (by rintro (h | h) <;> linarith), if_neg (by rintro (h | h); exacts [k1.1 h, k2.1 h]),
      if_neg (show ¬ (Matrix.of fun i j => (eig C).vecs j i : Mat3).det = 0 from hd), if_neg hSd]

theorem amM_ne_zero {C : Mat3} (hC : IsSPD C) {e : EigRes} (he : EigOK e.vals e.vecs C)
    (h02 : e.vals 0 < e.vals 2) {s c c1 c3 : ℝ} (hs : s * s = 1) (hc : c ≠ 0)
    (h13 : c1 ≠ 0 ∨ c3 ≠ 0) : amM e c c1 c3 s ≠ 0 := by
  have hxz := eig_orth hC.1 (he.eigenvector 0) (he.eigenvector 2) h02.ne
  have h0 := spd_eigen_pos hC he.eigenvalues 0
  have hlt : Real.sqrt (e.vals 0) < Real.sqrt (e.vals 2) := Real.sqrt_lt_sqrt h0.le h02
  unfold amM
  refine smul_ne_zero (div_ne_zero (by linarith) hc) fun hd => ?_
  have hdd : (-(c1 • e.vecs 0) + (s * c3) • e.vecs 2) ⬝ᵥ (-(c1 • e.vecs 0) + (s * c3) • e.vecs 2) =
      c1 ^ 2 + c3 ^ 2 := by
    simp only [dotProduct_add, add_dotProduct, dotProduct_smul, smul_dotProduct, smul_eq_mul,
      dotProduct_neg, neg_dotProduct, he.unit, hxz, dotProduct_comm (e.vecs 2) (e.vecs 0)]
    linear_combination c3 ^ 2 * hs
  rw [hd, zero_dotProduct] at hdd
  rcases h13 with h | h
  · have := sq_nonneg c3
    have := lt_of_le_of_ne (sq_nonneg c1) (Ne.symm (pow_ne_zero 2 h))
    linarith
  · have := sq_nonneg c1
    have := lt_of_le_of_ne (sq_nonneg c3) (Ne.symm (pow_ne_zero 2 h))
    linarith

/-- Beyond C57: if the middle eigenvalue is not one there is no solution, and `solve_rank1` does not notice:
it returns two pairs, and they are wrong. -/
theorem C57_no_solution (eig : Mat3 → EigRes) (heig : ∀ A, Aᵀ = A → EigOK (eig A).vals (eig A).vecs A)
    (C : Mat3) (hC : IsSPD C) (l : Fin 3 → ℝ) (hl : SortedEigenvalues C l) (h1 : l 1 ≠ 1)
    (h : 1 / 10 ^ 24 ≤ l 2 - l 0) :
    (∀ b m, ¬ SolvesRankOne C b m) ∧ ∃ p q, solveRank1 eig C = .ok (.two p q) := by
  constructor
  · intro b m hb
    rw [← hb.2] at hl
    exact h1 (mid_one hl)
  · obtain ⟨he, hv⟩ := sorted_eq (heig C hC.1) hl
    have h02 : l 0 < l 2 := by have : (0 : ℝ) < 1 / 10 ^ 24 := by norm_num
                               linarith
    have hne : ∀ s : ℝ, s * s = 1 → amM (sortEig eig C) (Real.sqrt (l 2 - l 0)) (Real.sqrt |1 - l 0|)
        (Real.sqrt |l 2 - 1|) s ≠ 0 := by
      intro s hs
      refine amM_ne_zero hC he (by rw [hv]; exact h02) hs (Real.sqrt_pos.2 (by linarith)).ne' ?_
      by_cases h0 : l 0 = 1
      · right
        exact (Real.sqrt_pos.2 (abs_pos.2 (by rw [← h0]; linarith))).ne'
      · left
        exact (Real.sqrt_pos.2 (abs_pos.2 (sub_ne_zero.2 (Ne.symm h0)))).ne'
    refine ⟨amPair (sortEig eig C) (Real.sqrt (l 2 - l 0)) (Real.sqrt |1 - l 0|) (Real.sqrt |l 2 - 1|) 1,
      amPair (sortEig eig C) (Real.sqrt (l 2 - l 0)) (Real.sqrt |1 - l 0|) (Real.sqrt |l 2 - 1|) (-1), ?_⟩
    have p0 := spd_eigen_pos hC hl.2 0
    have p2 := spd_eigen_pos hC hl.2 2
    simp only [solveRank1, hv]
    rw [if_neg (not_not.2 (posDefSym_of_spd hC)), if_neg (by rw [sqrt_lt_small]; exact not_lt.2 h), if_neg]
    rintro (h | h | h | h)
    · linarith
    · linarith
    · exact hne 1 (by norm_num) h
    · exact hne (-1) (by norm_num) h

/-- **C68**: the two pairs are all the solutions: every orientation-preserving solution of the equation is, up
to the sign of both vectors, one of the two pairs returned by `solve_rank1`. -/
theorem C68_all_solutions (eig : Mat3 → EigRes) (heig : ∀ A, Aᵀ = A → EigOK (eig A).vals (eig A).vecs A)
    (C : Mat3) (hC : IsSPD C) (l : Fin 3 → ℝ) (hl : SortedEigenvalues C l)
    (h : 1 / 10 ^ 24 ≤ l 2 - l 0) (b m : V3) (hbm : SolvesRankOne C b m) (hpos : 0 < 1 + m ⬝ᵥ b) :
    ∃ b₁ m₁ b₂ m₂, solveRank1 eig C = .ok (.two (b₁, m₁) (b₂, m₂)) ∧
      ((b = b₁ ∧ m = m₁) ∨ (b = -b₁ ∧ m = -m₁) ∨ (b = b₂ ∧ m = m₂) ∨ (b = -b₂ ∧ m = -m₂)) := by
  have h1 : l 1 = 1 := by
    have hl' := hl
    rw [← hbm.2] at hl'
    exact mid_one hl'
  obtain ⟨he, hv⟩ := sorted_eq (heig C hC.1) hl
  have hab := abs_one_sub hl.1 h1
  have h01 : l 0 ≤ l 1 := hl.1 (by decide)
  have h12 : l 1 ≤ l 2 := hl.1 (by decide)
  have p0 := spd_eigen_pos hC hl.2 0
  have p2 := spd_eigen_pos hC hl.2 2
  have h02 : l 0 < l 2 := by have : (0 : ℝ) < 1 / 10 ^ 24 := by norm_num
                             linarith
  have k1 := core_solves (heig C hC.1) hC hl h1 h02 (s := 1) (by norm_num) rfl rfl
  have k2 := core_solves (heig C hC.1) hC hl h1 h02 (s := -1) (by norm_num) rfl rfl
  have hall := am_complete hC.1 he (by rw [hv]; exact h1) (by rw [hv]; exact p0) (by rw [hv]; exact h02)
    (by rw [hv]; linarith) (by rw [hv]; linarith) rfl rfl rfl hbm hpos
  rw [hv] at hall
  refine ⟨(amPair (sortEig eig C) (Real.sqrt (l 2 - l 0)) (Real.sqrt (1 - l 0)) (Real.sqrt (l 2 - 1)) 1).1,
    (amPair (sortEig eig C) (Real.sqrt (l 2 - l 0)) (Real.sqrt (1 - l 0)) (Real.sqrt (l 2 - 1)) 1).2,
    (amPair (sortEig eig C) (Real.sqrt (l 2 - l 0)) (Real.sqrt (1 - l 0)) (Real.sqrt (l 2 - 1)) (-1)).1,
    (amPair (sortEig eig C) (Real.sqrt (l 2 - l 0)) (Real.sqrt (1 - l 0)) (Real.sqrt (l 2 - 1)) (-1)).2, ?_, ?_⟩
  · simp only [solveRank1, hv, hab.1, hab.2]
    rw [if_neg (not_not.2 (posDefSym_of_spd hC)), if_neg (by rw [sqrt_lt_small]; exact not_lt.2 h), if_neg]
    rintro (h | h | h | h)
    · linarith
    · linarith
    · exact k1.1 h
    · exact k2.1 h
  · obtain ⟨s, t, rfl | rfl, rfl | rfl, e1, e2⟩ := hall
    · rw [one_smul] at e1 e2; exact .inl ⟨e1, e2⟩
    · rw [neg_one_smul] at e1 e2; exact .inr (.inl ⟨e1, e2⟩)
    · rw [one_smul] at e1 e2; exact .inr (.inr (.inl ⟨e1, e2⟩))
    · rw [neg_one_smul] at e1 e2; exact .inr (.inr (.inr ⟨e1, e2⟩))

theorem eigenvalues_diagonal (d : Fin 3 → ℝ) : IsEigenvalues (Matrix.diagonal d) d := by
  unfold IsEigenvalues
  rw [Matrix.charpoly_diagonal]

theorem sorted_diagonal {d : Fin 3 → ℝ} (h : Monotone d) : SortedEigenvalues (Matrix.diagonal d) d :=
  ⟨h, eigenvalues_diagonal d⟩

theorem mono_three {a b c : ℝ} (h1 : a ≤ b) (h2 : b ≤ c) : Monotone ![a, b, c] := by
  intro i j hij
  fin_cases i <;> fin_cases j <;> simp at hij ⊢ <;> linarith

-- a matrix that meets the hypotheses of the theorems above
example : ∃ (C : Mat3) (l : Fin 3 → ℝ), IsSPD C ∧ SortedEigenvalues C l ∧ l 1 = 1 ∧
    1 / 10 ^ 12 ≤ l 2 - l 0 := by
  refine ⟨Matrix.diagonal ![1 / 4, 1, 4], ![1 / 4, 1, 4], spd_diagonal ?_,
    sorted_diagonal (mono_three (by norm_num) (by norm_num)), rfl, ?_⟩
  · intro i; fin_cases i <;> simp
  · show (1 : ℝ) / 10 ^ 12 ≤ 4 - 1 / 4
    norm_num

/-! ## C58 -/

theorem relMetric_eq (A B : Mat3) : ((Bᵀ)⁻¹ * Aᵀ) * (A * B⁻¹) = (A * B⁻¹)ᵀ * (A * B⁻¹) := by
  rw [Matrix.transpose_mul, Matrix.transpose_nonsing_inv]

/-- **C58** (partial): `isCompatible(A, B)` is true whenever a rotated `A` differs from `B` by a dyad, so
`False` is always right; and the answer is the comparison of the middle eigenvalue `l 1` with
`1 + 1e-5`.  Missing: "only if", which is false (`C58_fails`). -/
theorem C58_compatible_partial (eig : Mat3 → EigRes)
    (heig : ∀ A, Aᵀ = A → EigOK (eig A).vals (eig A).vecs A) (A B : Mat3) (h : 0 < A.det * B.det) :
    (RankOneConnected B A → isCompatible eig (some A) (some B) = .ok true) ∧
    ∀ l, SortedEigenvalues ((A * B⁻¹)ᵀ * (A * B⁻¹)) l →
      isCompatible eig (some A) (some B) = .ok (decide (l 1 < 1 + 1 / 10 ^ 5)) := by
  have hB : B.det ≠ 0 := fun h0 => by rw [h0, mul_zero] at h; exact lt_irrefl _ h
  have hA : A.det ≠ 0 := fun h0 => by rw [h0, zero_mul] at h; exact lt_irrefl _ h
  have hM : (A * B⁻¹).det ≠ 0 := by
    rw [Matrix.det_mul, Matrix.det_nonsing_inv, Ring.inverse_eq_inv']
    exact mul_ne_zero hA (inv_ne_zero hB)
  have key : ∀ l, SortedEigenvalues ((A * B⁻¹)ᵀ * (A * B⁻¹)) l →
      isCompatible eig (some A) (some B) = .ok (decide (l 1 < 1 + 1 / 10 ^ 5)) := by
    intro l hl
    have hv := (sorted_eq (heig _ (gram_symm (A * B⁻¹))) hl).2
    have hp := gram_eigen_pos hM hl.2 1
    simp only [isCompatible, if_neg hB, relMetric_eq, hv, abs_of_pos hp]
    congr 2
    exact propext ⟨fun h => by linarith, fun h => by linarith⟩
  refine ⟨fun hr => ?_, key⟩
  have hs := sortEig_spec (heig _ (gram_symm (A * B⁻¹)))
  have hl : SortedEigenvalues ((A * B⁻¹)ᵀ * (A * B⁻¹)) _ := ⟨hs.2, hs.1.eigenvalues⟩
  have h1 := (rankOne_iff hB (by rw [mul_comm]; exact h) hl).1 hr
  rw [key _ hl, h1]
  norm_num

/-- **C58 fails**: a sphere of half the radius is declared compatible with the unit sphere; the middle
eigenvalue is `1/4`, and no rotation of one differs from the other by a dyad. -/
theorem C58_fails (eig : Mat3 → EigRes) (heig : ∀ A, Aᵀ = A → EigOK (eig A).vals (eig A).vecs A) :
    ∃ A B : Mat3, IsSPD A ∧ IsSPD B ∧ isCompatible eig (some A) (some B) = .ok true ∧
      ¬ RankOneConnected B A ∧ SortedEigenvalues ((A * B⁻¹)ᵀ * (A * B⁻¹)) ![1 / 4, 1 / 4, 1 / 4] := by
  have hA : IsSPD (Matrix.diagonal ![1 / 2, 1 / 2, 1 / 2] : Mat3) :=
    spd_diagonal (by intro i; fin_cases i <;> simp)
  have hB : IsSPD (1 : Mat3) := by
    rw [← Matrix.diagonal_one]; exact spd_diagonal (by intro i; simp)
  have hdet : 0 < (Matrix.diagonal ![1 / 2, 1 / 2, 1 / 2] : Mat3).det * (1 : Mat3).det :=
    mul_pos (spd_det_pos hA) (spd_det_pos hB)
  have hC : ((Matrix.diagonal ![1 / 2, 1 / 2, 1 / 2] : Mat3) * 1⁻¹)ᵀ * (Matrix.diagonal ![1 / 2, 1 / 2, 1 / 2] * 1⁻¹) =
      Matrix.diagonal ![1 / 4, 1 / 4, 1 / 4] := by
    rw [inv_one, Matrix.mul_one, Matrix.diagonal_transpose, Matrix.diagonal_mul_diagonal]
    congr 1
    funext i
    fin_cases i <;> norm_num
  have hl : SortedEigenvalues (((Matrix.diagonal ![1 / 2, 1 / 2, 1 / 2] : Mat3) * 1⁻¹)ᵀ *
      (Matrix.diagonal ![1 / 2, 1 / 2, 1 / 2] * 1⁻¹)) ![1 / 4, 1 / 4, 1 / 4] := by
    rw [hC]; exact sorted_diagonal (mono_three le_rfl le_rfl)
  refine ⟨Matrix.diagonal ![1 / 2, 1 / 2, 1 / 2], 1, hA, hB, ?_, ?_, hl⟩
  · rw [(C58_compatible_partial eig heig _ _ hdet).2 _ hl]
    norm_num
  · rw [rankOne_iff (spd_det_pos hB).ne' (by rw [mul_comm]; exact hdet) hl]
    norm_num

/-- Arguments that are not arrays are declared incompatible. -/
theorem C58_not_array (eig : Mat3 → EigRes) (A : Option Mat3) :
    isCompatible eig none A = .ok false ∧ isCompatible eig A none = .ok false := by
  cases A <;> exact ⟨rfl, rfl⟩

end Verif.Props
