import Verif.Lemmas.Twin
import Verif.Props.Rank1

/-!
# C54, C55, C69: twinnable pairs, twin axes and the twinning equation

`eig` is any eigenvalue routine that keeps its promise (`EigOK`) on symmetric matrices.
-/

namespace Verif.Props

open Matrix Verif.Model Verif.Spec Verif.Lemmas

local notation "Mat3" => Matrix (Fin 3) (Fin 3) ℝ

/-! ## C54 -/

/-- The matrix whose eigenvalues `istwinnable` looks at. -/
noncomputable def relMetric (Ui Uj : Mat3) : Mat3 := Ui⁻¹ * Uj * (Uj * Ui⁻¹)

theorem relMetric_gram {Ui Uj : Mat3} (hi : Uiᵀ = Ui) (hj : Ujᵀ = Uj) :
    relMetric Ui Uj = (Uj * Ui⁻¹)ᵀ * (Uj * Ui⁻¹) := by
  rw [relMetric, Matrix.transpose_mul, Matrix.transpose_nonsing_inv, hi, hj]

theorem relMetric_symm {Ui Uj : Mat3} (hi : Uiᵀ = Ui) (hj : Ujᵀ = Uj) :
    (relMetric Ui Uj)ᵀ = relMetric Ui Uj := by
  rw [relMetric_gram hi hj, gram_symm]

theorem new_ok (eig : Mat3 → EigRes) {Ui Uj : Mat3} (hi : IsSPD Ui) (hj : IsSPD Uj) (skip : Bool) :
    TwinPair.new eig Ui Uj skip = .ok ⟨Ui, Uj, sortEig eig (relMetric Ui Uj)⟩ := by
  unfold TwinPair.new
  rw [if_neg, if_neg (spd_det_pos hi).ne']
  · rfl
  · rintro ⟨_, h | h⟩
    · exact h (posDefSym_of_spd hi)
    · exact h (posDefSym_of_spd hj)

/-- **C54**, the criterion: for symmetric positive definite stretches the middle eigenvalue computed by the
constructor is one iff some rotation of `Uj` differs from `Ui` by a dyad. -/
theorem C54_criterion (eig : Mat3 → EigRes) (heig : ∀ A, Aᵀ = A → EigOK (eig A).vals (eig A).vecs A)
    (Ui Uj : Mat3) (hi : IsSPD Ui) (hj : IsSPD Uj) (skip : Bool) :
    ∃ p, TwinPair.new eig Ui Uj skip = .ok p ∧ p.Ui = Ui ∧ p.Uj = Uj ∧
      SortedEigenvalues (Ui⁻¹ * Uj * (Uj * Ui⁻¹)) p.e.vals ∧
      (p.e.vals 1 = 1 ↔ RankOneConnected Ui Uj) := by
  have hs := sortEig_spec (heig _ (relMetric_symm hi.1 hj.1))
  have hS : SortedEigenvalues (relMetric Ui Uj) (sortEig eig (relMetric Ui Uj)).vals := ⟨hs.2, hs.1.eigenvalues⟩
  refine ⟨_, new_ok eig hi hj skip, rfl, rfl, hS, ?_⟩
  have hS' := hS
  rw [relMetric_gram hi.1 hj.1] at hS'
  have := rankOne_iff (spd_det_pos hi).ne' (mul_pos (spd_det_pos hi) (spd_det_pos hj)) hS'
  rw [← relMetric_gram hi.1 hj.1] at this
  exact this.symm

/-- **C54**, symmetry of the exact condition. -/
theorem C54_symmetric (Ui Uj : Mat3) : RankOneConnected Ui Uj ↔ RankOneConnected Uj Ui := by
  have key : ∀ A B : Mat3, RankOneConnected A B → RankOneConnected B A := by
    rintro A B ⟨Q, a, n, hQ, h⟩
    refine ⟨Qᵀ, -(Qᵀ *ᵥ a), n, ⟨by rw [transpose_transpose]; exact mul_eq_one_comm.1 hQ.1,
      by rw [det_transpose]; exact hQ.2⟩, ?_⟩
    have hB : B = Qᵀ * (Q * B) := by rw [← Matrix.mul_assoc, mul_eq_one_comm.1 hQ.1, Matrix.one_mul]
    have hQB : Q * B = A + vecMulVec a n := by rw [← h]; abel
    rw [hB, hQB, mul_add, mul_vecMulVec, neg_vecMulVec]
    abel
  exact ⟨key _ _, key _ _⟩

theorem isTwinnable_iff (p : TwinPair) : p.isTwinnable = true ↔
    (∃ i j, small ≤ |p.Ui i j - p.Uj i j|) ∧ |p.e.vals 1 - 1| < 5 / 10 ^ 3 := by
  unfold TwinPair.isTwinnable maxClose twinTol
  split_ifs with h
  · simp only [Bool.false_eq_true, false_iff, not_and]
    rintro ⟨i, j, hij⟩
    exact absurd (h i j) (not_lt.2 hij)
  · push Not at h
    simp [h]

/-- **C54** (partial), the answer of `istwinnable`: it is true iff some entry of the stretches differs by
at least 1e-12 and the middle eigenvalue is within 0.005 of one; in particular it is true for every
rank-one connected pair with such a difference.  Missing: "only for rank-one connected pairs"
(`C54_tolerance_fails`) and symmetry of the answer (`C54_symmetry_fails`). -/
theorem C54_istwinnable_partial (eig : Mat3 → EigRes)
    (heig : ∀ A, Aᵀ = A → EigOK (eig A).vals (eig A).vecs A)
    (Ui Uj : Mat3) (hi : IsSPD Ui) (hj : IsSPD Uj) (skip : Bool) (l : Fin 3 → ℝ)
    (hl : SortedEigenvalues (Ui⁻¹ * Uj * (Uj * Ui⁻¹)) l) :
    ∃ p, TwinPair.new eig Ui Uj skip = .ok p ∧
      (p.isTwinnable = true ↔ (∃ i j, 1 / 10 ^ 12 ≤ |Ui i j - Uj i j|) ∧ |l 1 - 1| < 5 / 10 ^ 3) ∧
      (RankOneConnected Ui Uj → (∃ i j, 1 / 10 ^ 12 ≤ |Ui i j - Uj i j|) → p.isTwinnable = true) := by
  obtain ⟨p, hp, h1, h2, h3, h4⟩ := C54_criterion eig heig Ui Uj hi hj skip
  refine ⟨p, hp, ?_, ?_⟩
  · rw [isTwinnable_iff, h1, h2, sorted_unique h3 hl]
    rfl
  · intro hc hd
    rw [isTwinnable_iff, h1, h2, h4.2 hc]
    exact ⟨hd, by norm_num⟩

/-- Two orthorhombic variants related by a threefold rotation. -/
noncomputable def orthoA : Mat3 := diagonal ![1995 / 1000, 1, 9975 / 10000]
noncomputable def orthoB : Mat3 := diagonal ![1, 9975 / 10000, 1995 / 1000]

theorem orthoA_spd : IsSPD orthoA := spd_diagonal (by intro i; fin_cases i <;> norm_num)
theorem orthoB_spd : IsSPD orthoB := spd_diagonal (by intro i; fin_cases i <;> norm_num)

theorem diagonal_lit (a b c : ℝ) : diagonal ![a, b, c] = !![a, 0, 0; 0, b, 0; 0, 0, c] := by
  ext i j
  fin_cases i <;> fin_cases j <;> rfl

theorem diagonal_inv3 {a b c : ℝ} (ha : a ≠ 0) (hb : b ≠ 0) (hc : c ≠ 0) :
    (diagonal ![a, b, c])⁻¹ = diagonal ![a⁻¹, b⁻¹, c⁻¹] := by
  apply Matrix.inv_eq_right_inv
  rw [diagonal_mul_diagonal, ← diagonal_one]
  congr 1
  funext i
  fin_cases i <;> simp [ha, hb, hc]

theorem relMetric_diagonal {a b c a' b' c' : ℝ} (ha : a ≠ 0) (hb : b ≠ 0) (hc : c ≠ 0) :
    relMetric (diagonal ![a, b, c]) (diagonal ![a', b', c']) =
      diagonal ![(a' / a) ^ 2, (b' / b) ^ 2, (c' / c) ^ 2] := by
  rw [relMetric, diagonal_inv3 ha hb hc, diagonal_mul_diagonal, diagonal_mul_diagonal, diagonal_mul_diagonal]
  congr 1
  funext i
  fin_cases i <;> simp <;> ring

theorem ortho_related : Related orthoA orthoB := by
  refine ⟨!![0, 1, 0; 0, 0, 1; 1, 0, 0], ⟨?_, ?_⟩, ?_⟩
  · ext i j; fin_cases i <;> fin_cases j <;> simp [Matrix.mul_apply, Fin.sum_univ_three]
  · simp [det_fin_three]
  · rw [orthoA, orthoB, diagonal_lit, diagonal_lit]
    ext i j
    fin_cases i <;> fin_cases j <;> simp [Matrix.mul_apply, Fin.sum_univ_three]

/-- **C54**, what the tolerance admits: for two variants related by a rotation `istwinnable()` is true
although they are not rank-one connected. -/
theorem C54_tolerance_fails (eig : Mat3 → EigRes)
    (heig : ∀ A, Aᵀ = A → EigOK (eig A).vals (eig A).vecs A) :
    ∃ Ui Uj p, IsSPD Ui ∧ IsSPD Uj ∧ Related Ui Uj ∧ TwinPair.new eig Ui Uj false = .ok p ∧
      p.isTwinnable = true ∧ ¬ RankOneConnected Ui Uj := by
  have hl : SortedEigenvalues (orthoA⁻¹ * orthoB * (orthoB * orthoA⁻¹))
      ![(1 / (1995 / 1000)) ^ 2, (9975 / 10000 / 1) ^ 2, (1995 / 1000 / (9975 / 10000)) ^ 2] := by
    have := relMetric_diagonal (a := 1995 / 1000) (b := 1) (c := 9975 / 10000) (a' := 1)
      (b' := 9975 / 10000) (c' := 1995 / 1000) (by norm_num) (by norm_num) (by norm_num)
    rw [relMetric] at this
    rw [orthoA, orthoB, this]
    exact sorted_diagonal (mono_three (by norm_num) (by norm_num))
  obtain ⟨p, hp, h1, _⟩ := C54_istwinnable_partial eig heig orthoA orthoB orthoA_spd orthoB_spd false _ hl
  obtain ⟨p', hp', _, _, h3, h4⟩ := C54_criterion eig heig orthoA orthoB orthoA_spd orthoB_spd false
  refine ⟨orthoA, orthoB, p, orthoA_spd, orthoB_spd, ortho_related, hp, h1.2 ⟨⟨0, 0, ?_⟩, ?_⟩, ?_⟩
  · simp only [orthoA, orthoB, diagonal_apply_eq]
    rw [le_abs]
    left
    norm_num
  · show |((9975 : ℝ) / 10000 / 1) ^ 2 - 1| < 5 / 10 ^ 3
    rw [abs_lt]
    norm_num
  · rw [← h4, sorted_unique h3 hl]
    show ¬ (((9975 : ℝ) / 10000 / 1) ^ 2 = 1)
    norm_num

/-- **C54**, the answer depends on the order of the two variants. -/
theorem C54_symmetry_fails (eig : Mat3 → EigRes)
    (heig : ∀ A, Aᵀ = A → EigOK (eig A).vals (eig A).vecs A) :
    ∃ Ui Uj p p', IsSPD Ui ∧ IsSPD Uj ∧ Related Ui Uj ∧ TwinPair.new eig Ui Uj false = .ok p ∧
      TwinPair.new eig Uj Ui false = .ok p' ∧ p.isTwinnable = true ∧ p'.isTwinnable = false := by
  have hl : SortedEigenvalues (orthoA⁻¹ * orthoB * (orthoB * orthoA⁻¹))
      ![(1 / (1995 / 1000)) ^ 2, (9975 / 10000 / 1) ^ 2, (1995 / 1000 / (9975 / 10000)) ^ 2] := by
    have := relMetric_diagonal (a := 1995 / 1000) (b := 1) (c := 9975 / 10000) (a' := 1)
      (b' := 9975 / 10000) (c' := 1995 / 1000) (by norm_num) (by norm_num) (by norm_num)
    rw [relMetric] at this
    rw [orthoA, orthoB, this]
    exact sorted_diagonal (mono_three (by norm_num) (by norm_num))
  have hl' : SortedEigenvalues (orthoB⁻¹ * orthoA * (orthoA * orthoB⁻¹))
      ![(9975 / 10000 / (1995 / 1000)) ^ 2, (1 / (9975 / 10000)) ^ 2, (1995 / 1000 / 1) ^ 2] := by
    have := relMetric_diagonal (a := 1) (b := 9975 / 10000) (c := 1995 / 1000) (a' := 1995 / 1000)
      (b' := 1) (c' := 9975 / 10000) (by norm_num) (by norm_num) (by norm_num)
    rw [relMetric] at this
    rw [orthoA, orthoB, this]
    refine ⟨mono_three (by norm_num) (by norm_num), ?_⟩
    have h := eigenvalues_diagonal
      ![((1995 : ℝ) / 1000 / 1) ^ 2, (1 / (9975 / 10000)) ^ 2, (9975 / 10000 / (1995 / 1000)) ^ 2]
    unfold IsEigenvalues at h ⊢
    rw [h, Fin.prod_univ_three, Fin.prod_univ_three]
    simp only [Matrix.cons_val]
    ring
  obtain ⟨p, hp, h1, _⟩ := C54_istwinnable_partial eig heig orthoA orthoB orthoA_spd orthoB_spd false _ hl
  obtain ⟨p', hp', h1', _⟩ := C54_istwinnable_partial eig heig orthoB orthoA orthoB_spd orthoA_spd false _ hl'
  refine ⟨orthoA, orthoB, p, p', orthoA_spd, orthoB_spd, ortho_related, hp, hp', h1.2 ⟨⟨0, 0, ?_⟩, ?_⟩, ?_⟩
  · simp only [orthoA, orthoB, diagonal_apply_eq]
    rw [le_abs]
    left
    norm_num
  · show |((9975 : ℝ) / 10000 / 1) ^ 2 - 1| < 5 / 10 ^ 3
    rw [abs_lt]
    norm_num
  · rw [← Bool.not_eq_true, h1']
    rintro ⟨_, h⟩
    change |((1 : ℝ) / (9975 / 10000)) ^ 2 - 1| < 5 / 10 ^ 3 at h
    rw [abs_lt] at h
    norm_num at h

/-- The two tetragonal variants `diag(1, 1, 2)` and `diag(1, 2, 1)`. -/
noncomputable def tetra2 : Mat3 := diagonal ![1, 2, 1]

theorem tetra_spd : IsSPD tetra := by
  rw [tetra_eq]; exact spd_diagonal (by intro i; fin_cases i <;> norm_num)
theorem tetra2_spd : IsSPD tetra2 := spd_diagonal (by intro i; fin_cases i <;> norm_num)

theorem tetra_related : Related tetra tetra2 := by
  refine ⟨!![-1, 0, 0; 0, 0, 1; 0, 1, 0], ⟨?_, ?_⟩, ?_⟩
  · ext i j; fin_cases i <;> fin_cases j <;> simp [Matrix.mul_apply, Fin.sum_univ_three]
  · simp [det_fin_three]
  · rw [tetra_eq, tetra2, diagonal_lit, diagonal_lit]
    ext i j
    fin_cases i <;> fin_cases j <;> simp [Matrix.mul_apply, Fin.sum_univ_three]

theorem tetra_metric : relMetric tetra tetra2 = diagonal ![1, 4, 1 / 4] := by
  rw [tetra_eq, tetra2, relMetric_diagonal (by norm_num) (by norm_num) (by norm_num)]
  congr 1
  funext i
  fin_cases i <;> norm_num

theorem tetra_sorted : SortedEigenvalues (relMetric tetra tetra2) ![1 / 4, 1, 4] := by
  rw [tetra_metric]
  refine ⟨mono_three (by norm_num) (by norm_num), ?_⟩
  have h := eigenvalues_diagonal ![(1 : ℝ), 4, 1 / 4]
  unfold IsEigenvalues at h ⊢
  rw [h, Fin.prod_univ_three, Fin.prod_univ_three]
  simp only [Matrix.cons_val]
  ring

theorem tetra_differ : ∃ i j, 1 / 10 ^ 12 ≤ |tetra i j - tetra2 i j| := by
  refine ⟨1, 1, ?_⟩
  rw [tetra_eq, tetra2]
  simp only [diagonal_apply_eq]
  norm_num

theorem tetra_connected : RankOneConnected tetra tetra2 := by
  have h := rankOne_iff (spd_det_pos tetra_spd).ne' (mul_pos (spd_det_pos tetra_spd) (spd_det_pos tetra2_spd))
    (l := ![1 / 4, 1, 4]) (by rw [← relMetric_gram tetra_spd.1 tetra2_spd.1]; exact tetra_sorted)
  exact h.2 rfl

-- the tetragonal pair meets the hypotheses of the theorems above and is twinnable
example (eig : Mat3 → EigRes) (heig : ∀ A, Aᵀ = A → EigOK (eig A).vals (eig A).vecs A) :
    ∃ p, TwinPair.new eig tetra tetra2 false = .ok p ∧ p.isTwinnable = true := by
  obtain ⟨p, hp, _, h⟩ := C54_istwinnable_partial eig heig tetra tetra2 tetra_spd tetra2_spd false _ tetra_sorted
  exact ⟨p, hp, h tetra_connected tetra_differ⟩

end Verif.Props
