import Verif.Props.LatCorHnf

/-!
# Property C85: when `LLL` delivers for all sublattices that are searched

The hypothesis of `C85_lat_cor_hnf_partial` on `LLL` in terms of the lattice and the index of the sublattices.
-/

namespace Verif.Props

open Matrix Verif.Spec Verif.Model Verif.Lemmas

/-- The entries of a column of a normal form add up to at most its determinant. -/
theorem hnf_column_sum {h : Z3} (hh : IsHNF h) (j : Fin 3) : ∑ i, |h i j| ≤ h.det := by
  rw [det_isHNF hh, Fin.prod_univ_three, Fin.sum_univ_three]
  have d0 := hh.diag 0
  have d1 := hh.diag 1
  have d2 := hh.diag 2
  have key : h 0 0 + h 1 1 + h 2 2 - 2 ≤ h 0 0 * h 1 1 * h 2 2 := by
    have e1 : h 0 0 + h 1 1 - 1 ≤ h 0 0 * h 1 1 := by nlinarith
    have e2 : h 0 0 * h 1 1 + h 2 2 - 1 ≤ h 0 0 * h 1 1 * h 2 2 := by
      have : 1 ≤ h 0 0 * h 1 1 := by nlinarith
      nlinarith
    linarith
  have off : ∀ i k : Fin 3, k < i → |h i k| ≤ h i i - 1 := by
    intro i k hik
    obtain ⟨a, b⟩ := hh.lower i k hik
    rw [abs_of_nonpos b]
    omega
  fin_cases j
  · have a := off 1 0 (by decide)
    have b := off 2 0 (by decide)
    simp only [Fin.zero_eta, abs_of_pos d0]
    linarith
  · have b := off 2 1 (by decide)
    simp only [Fin.mk_one, hh.upper 0 1 (by decide), abs_of_pos d1, abs_zero]
    linarith
  · simp only [Fin.reduceFinMk, hh.upper 0 2 (by decide), hh.upper 1 2 (by decide), abs_of_pos d2, abs_zero]
    linarith

/-- A combination of vectors of squared length at most `A`. -/
theorem combination_sq {E : Matrix (Fin 3) (Fin 3) ℝ} {A : ℝ} (hA : ∀ j, ∑ i, E i j ^ 2 ≤ A) (c : Fin 3 → ℝ) :
    ∑ r, (∑ i, E r i * c i) ^ 2 ≤ (∑ i, |c i|) ^ 2 * A := by
  have cs : ∀ r, (∑ i, E r i * c i) ^ 2 ≤ (∑ i, |c i|) * ∑ i, |c i| * E r i ^ 2 := by
    intro r
    have := Finset.sum_sq_le_sum_mul_sum_of_sq_eq_mul Finset.univ (r := fun i => E r i * c i)
      (f := fun i => |c i|) (g := fun i => |c i| * E r i ^ 2) (fun i _ => abs_nonneg _)
      (fun i _ => mul_nonneg (abs_nonneg _) (sq_nonneg _)) (fun i _ => by
        have := sq_abs (c i)
        rw [mul_pow, ← this]; ring)
    exact this
  calc ∑ r, (∑ i, E r i * c i) ^ 2 ≤ ∑ r, (∑ i, |c i|) * ∑ i, |c i| * E r i ^ 2 := Finset.sum_le_sum fun r _ => cs r
    _ = (∑ i, |c i|) * ∑ i, |c i| * ∑ r, E r i ^ 2 := by
        rw [← Finset.mul_sum, Finset.sum_comm]
        simp only [Finset.mul_sum]
    _ ≤ (∑ i, |c i|) * ∑ i, |c i| * A := by
        refine mul_le_mul_of_nonneg_left (Finset.sum_le_sum fun i _ => ?_) (Finset.sum_nonneg fun i _ => abs_nonneg _)
        exact mul_le_mul_of_nonneg_left (hA i) (abs_nonneg _)
    _ = (∑ i, |c i|) ^ 2 * A := by rw [← Finset.sum_mul]; ring

/-- **C85**, the hypothesis on `LLL` of `C85_lat_cor_hnf_partial`: it holds whenever, with `A` a bound of the
squared lengths of the lattice vectors and `k` the index of the sublattice, `k ^ 4 * A ^ 3 ≤ 10 ^ 6 * V ^ 2` for the
volume `V` of the cell.  For a cubic cell these are all indices up to 31.
Missing: more elongated cells and larger indices, for which `LLL` may return a pair (`C48_pair_fails`). -/
theorem C85_sublattice_base_partial {EA : Matrix (Fin 3) (Fin 3) ℝ} (hEA : EA.det ≠ 0) {A : ℝ}
    (hA : ∀ j, ∑ i, EA i j ^ 2 ≤ A) (h : Z3) (hh : IsHNF h)
    (hk : (h.det : ℝ) ^ 4 * A ^ 3 ≤ 10 ^ 6 * EA.det ^ 2) : ∃ B, lll (EA * intMat ℝ h) = .base B := by
  have hpos : 0 < h.det := by
    rw [det_isHNF hh]
    exact Finset.prod_pos fun i _ => hh.diag i
  have hposR : (0 : ℝ) < h.det := by exact_mod_cast hpos
  have hA0 : 0 < A := by
    by_contra hc
    apply hEA
    refine Matrix.det_eq_zero_of_column_eq_zero 0 fun i => ?_
    have h0 : ∑ i, EA i 0 ^ 2 ≤ 0 := le_trans (hA 0) (not_lt.mp hc)
    have h1 : ∑ i, EA i 0 ^ 2 = 0 := le_antisymm h0 (Finset.sum_nonneg fun i _ => sq_nonneg _)
    have := (Finset.sum_eq_zero_iff_of_nonneg fun i _ => sq_nonneg (EA i 0)).mp h1 i (Finset.mem_univ i)
    simpa using this
  have hdet : (EA * intMat ℝ h).det = EA.det * h.det := by
    rw [Matrix.det_mul]
    congr 1
    exact (Int.cast_det h).symm
  have hcol : ∀ j, ∑ i, (EA * intMat ℝ h) i j ^ 2 ≤ (h.det : ℝ) ^ 2 * A := by
    intro j
    have h1 := combination_sq hA (fun i => (h i j : ℝ))
    have h2 : ∑ i, |(h i j : ℝ)| ≤ h.det := by
      have := hnf_column_sum hh j
      have h3 : ((∑ i, |h i j| : ℤ) : ℝ) ≤ (h.det : ℝ) := by exact_mod_cast this
      simpa using h3
    have h3 : (∑ i, |(h i j : ℝ)|) ^ 2 * A ≤ (h.det : ℝ) ^ 2 * A :=
      mul_le_mul_of_nonneg_right (pow_le_pow_left₀ (Finset.sum_nonneg fun i _ => abs_nonneg _) h2 2) hA0.le
    exact le_trans (le_of_eq rfl) (le_trans h1 h3)
  obtain ⟨B, hB, -⟩ := C84_cell_partial (E := EA * intMat ℝ h) (A := (h.det : ℝ) ^ 2 * A)
    (by rw [hdet]; exact mul_ne_zero hEA hposR.ne') (by positivity) hcol (by
      rw [hdet]
      have : ((h.det : ℝ) ^ 2 * A) ^ 3 = (h.det : ℝ) ^ 2 * ((h.det : ℝ) ^ 4 * A ^ 3) := by ring
      rw [this]
      calc (h.det : ℝ) ^ 2 * ((h.det : ℝ) ^ 4 * A ^ 3) ≤ (h.det : ℝ) ^ 2 * (10 ^ 6 * EA.det ^ 2) :=
            mul_le_mul_of_nonneg_left hk (by positivity)
        _ = 10 ^ 6 * (EA.det * h.det) ^ 2 := by ring)
  exact ⟨B, hB⟩

-- the sublattices of index 31 of the cubic lattice
example (h : Z3) (hh : IsHNF h) (hd : h.det = 31) : ∃ B, lll ((1 : Matrix (Fin 3) (Fin 3) ℝ) * intMat ℝ h) = .base B :=
  C85_sublattice_base_partial (A := 1) (by simp) (by
    intro j
    simp [Matrix.one_apply]) h hh (by rw [hd]; norm_num)
example : IsHNF (Matrix.diagonal ![1, 1, 31] : Z3) ∧ (Matrix.diagonal ![1, 1, 31] : Z3).det = 31 := by
  refine ⟨⟨fun i j hij => ?_, fun i => ?_, fun i j hij => ?_⟩, by decide +kernel⟩
  · fin_cases i <;> fin_cases j <;> first | rfl | simp at hij
  · fin_cases i <;> decide
  · fin_cases i <;> fin_cases j <;> first | decide | simp at hij

end Verif.Props
