import Mathlib.Topology.Algebra.Order.Archimedean
import Verif.Lemmas.LLLTerm
import Verif.Props.LLL

/-!
# C84: lattice reduction ends, and returns a reduced base unless the cell is extremely elongated
-/

namespace Verif.Props

open Matrix Verif.Model Verif.Spec Verif.Lemmas

variable {n : ℕ}

theorem det_cols {E : Matrix (Fin n) (Fin n) ℝ} : (Matrix.of (Eᵀ : Cols n)).det = E.det := by
  change Eᵀ.det = _
  rw [Matrix.det_transpose]

theorem cols_sq {E : Matrix (Fin n) (Fin n) ℝ} {A : ℝ} (hA : ∀ j, ∑ i, E i j ^ 2 ≤ A) (k : Fin n) :
    (Eᵀ : Cols n) k ⬝ᵥ (Eᵀ : Cols n) k ≤ A := by
  refine le_trans (le_of_eq ?_) (hA k)
  simp only [dotProduct, Matrix.transpose_apply, pow_two]

/-- **C84** (partial).  Whatever the dimension and the (independent) columns, the iteration of `LLL` would
end by itself: after enough iterations nothing is left to swap. -/
theorem C84_ends_partial {E : Matrix (Fin n) (Fin n) ℝ} (hE : E.det ≠ 0) :
    ∃ m, ∀ g, (lllLoop (m + g) Eᵀ 0).2.2 = false ∧ (lllLoop (m + g) Eᵀ 0).2.1 ≤ m := by
  set A : ℝ := 1 + ∑ j, ∑ i, E i j ^ 2 with hAdef
  have hnn : ∀ j, 0 ≤ ∑ i, E i j ^ 2 := fun j => Finset.sum_nonneg fun i _ => sq_nonneg _
  have hA0 : 0 < A := by
    have := Finset.sum_nonneg fun j (_ : j ∈ Finset.univ) => hnn j
    rw [hAdef]; linarith
  have hA : ∀ j, ∑ i, E i j ^ 2 ≤ A := by
    intro j
    have := Finset.single_le_sum (f := fun j => ∑ i, E i j ^ 2) (fun j _ => hnn j) (Finset.mem_univ j)
    rw [hAdef]; linarith
  have hp : 0 < (E.det ^ 2) ^ (n - 1) := pow_pos (by positivity) _
  obtain ⟨m, hm⟩ := pow_unbounded_of_one_lt ((A ^ n) ^ (n - 1) / (E.det ^ 2) ^ (n - 1)) (show (1 : ℝ) < 4 / 3 by norm_num)
  rw [div_lt_iff₀ hp, mul_comm] at hm
  refine ⟨m, fun g => ?_⟩
  have := lllLoop_bound (C := (Eᵀ : Cols n)) (by rw [det_cols]; exact hE) (cols_sq hA) hA0
    (m := m) (by rw [det_cols]; exact hm) g 0
  exact ⟨this.1, by have := this.2.2; omega⟩

/-- **C84** (partial).  The limit of 1000 iterations is not reached if the columns, of squared length at
most `A`, satisfy `A^(n(n-1)) < det(E)^(2(n-1)) (4/3)^1000`. -/
theorem C84_limit_partial {E : Matrix (Fin n) (Fin n) ℝ} (hE : E.det ≠ 0) {A : ℝ} (hA0 : 0 < A)
    (hA : ∀ j, ∑ i, E i j ^ 2 ≤ A) (hm : (A ^ n) ^ (n - 1) < (E.det ^ 2) ^ (n - 1) * (4 / 3) ^ 1000) :
    (lllLoop 1000 Eᵀ 0).2.2 = false :=
  (lllLoop_bound (C := (Eᵀ : Cols n)) (by rw [det_cols]; exact hE) (cols_sq hA) hA0
    (m := 1000) (by rw [det_cols]; exact hm) 0 0).1

theorem lll_base_of {E : Matrix (Fin n) (Fin n) ℝ} (h : (lllLoop 1000 Eᵀ 0).2.1 ≠ 100) :
    ∃ B, lll E = .base B := by
  unfold lll
  simp only
  rw [if_neg h]
  split
  · exact ⟨_, rfl⟩
  · exact ⟨_, rfl⟩

/-- **C84** (partial).  If the columns, of squared length at most `A`, satisfy
`A^(n(n-1)) < det(E)^(2(n-1)) (4/3)^99`, then `LLL(E)` returns a base of the same lattice with the same
orientation, in reduced order, whose first vector is at most `2^((n-1)/2)` times as long as any non-zero
vector of the lattice.  Missing: the remaining size reductions (`C49_size_fails`), and more elongated
bases, for which a pair or an unreduced base can be returned (`C48_pair_fails`, `C49_limit_fails`). -/
theorem C84_reduces_partial {E : Matrix (Fin n) (Fin n) ℝ} (hE : E.det ≠ 0) {A : ℝ} (hA0 : 0 < A)
    (hA : ∀ j, ∑ i, E i j ^ 2 ≤ A) (hm : (A ^ n) ^ (n - 1) < (E.det ^ 2) ^ (n - 1) * (4 / 3) ^ 99) :
    ∃ B, lll E = .base B ∧
      (∃ U : Matrix (Fin n) (Fin n) ℤ, U.det = 1 ∧ B = E * U.map (Int.cast : ℤ → ℝ)) ∧
      (∃ O M, IsGramSchmidt (Bᵀ : Fin n → Fin n → ℝ) O M ∧ (∀ i, O i ⬝ᵥ O i ≠ 0) ∧ Lovasz O M ∧
        ∀ i j : Fin n, (i : ℕ) = j + 1 → |M i j| ≤ 1 / 2) ∧
      ∀ (hn : 0 < n) (z : Fin n → ℤ), z ≠ 0 →
        ∑ i, B i ⟨0, hn⟩ ^ 2 ≤ 2 ^ (n - 1) * ∑ i, (∑ j, E i j * z j) ^ 2 := by
  obtain ⟨h1, h2, h3⟩ := lllLoop_bound (C := (Eᵀ : Cols n)) (by rw [det_cols]; exact hE) (cols_sq hA) hA0
    (m := 99) (by rw [det_cols]; exact hm) 901 0
  obtain ⟨B, hB⟩ := lll_base_of (E := E) (by
    have : (lllLoop 1000 Eᵀ 0).2.1 ≤ 0 + 99 := h3
    omega)
  refine ⟨B, hB, C48_lattice_partial hE hB, C49_reduced_partial hE hB h1, fun hn z hz => ?_⟩
  have := C49_short_partial hE hB h1 hn z hz
  simpa only [dotProduct, Matrix.mulVec, ← pow_two] using this

/-- **C84**, three dimensions: it suffices that no column is longer than ten times the cube root of the
cell volume. -/
theorem C84_cell_partial {E : Matrix (Fin 3) (Fin 3) ℝ} (hE : E.det ≠ 0) {A : ℝ} (hA0 : 0 < A)
    (hA : ∀ j, ∑ i, E i j ^ 2 ≤ A) (hm : A ^ 3 ≤ 10 ^ 6 * E.det ^ 2) :
    ∃ B, lll E = .base B ∧
      (∃ U : Matrix (Fin 3) (Fin 3) ℤ, U.det = 1 ∧ B = E * U.map (Int.cast : ℤ → ℝ)) ∧
      (∃ O M, IsGramSchmidt (Bᵀ : Fin 3 → Fin 3 → ℝ) O M ∧ (∀ i, O i ⬝ᵥ O i ≠ 0) ∧ Lovasz O M ∧
        ∀ i j : Fin 3, (i : ℕ) = j + 1 → |M i j| ≤ 1 / 2) ∧
      ∀ z : Fin 3 → ℤ, z ≠ 0 → ∑ i, B i 0 ^ 2 ≤ 4 * ∑ i, (∑ j, E i j * z j) ^ 2 := by
  have hd : 0 < E.det ^ 2 := by positivity
  have hlt : (A ^ 3) ^ (3 - 1) < (E.det ^ 2) ^ (3 - 1) * (4 / 3) ^ 99 := by
    calc (A ^ 3) ^ 2 ≤ (10 ^ 6 * E.det ^ 2) ^ 2 := pow_le_pow_left₀ (by positivity) hm 2
      _ = (E.det ^ 2) ^ 2 * 10 ^ 12 := by ring
      _ < _ := mul_lt_mul_of_pos_left (by norm_num) (by positivity)
  obtain ⟨B, h1, h2, h3, h4⟩ := C84_reduces_partial hE hA0 hA hlt
  refine ⟨B, h1, h2, h3, fun z hz => ?_⟩
  have := h4 (by norm_num) z hz
  norm_num at this
  exact this

/-- The hypotheses hold for a skew base, longest column `(7, 5, 0)`, volume 1, which needs several
reductions. -/
example : ∃ E : Matrix (Fin 3) (Fin 3) ℝ, E.det ≠ 0 ∧ (∀ j, ∑ i, E i j ^ 2 ≤ 74) ∧ (74 : ℝ) ^ 3 ≤ 10 ^ 6 * E.det ^ 2 ∧
    E = !![7, 4, 0; 5, 3, 0; 0, 0, 1] := by
  have hd : (!![7, 4, 0; 5, 3, 0; 0, 0, 1] : Matrix (Fin 3) (Fin 3) ℝ).det = 1 := by
    rw [Matrix.det_fin_three]; simp; norm_num
  refine ⟨_, ?_, ?_, ?_, rfl⟩
  · rw [hd]; norm_num
  · intro j; fin_cases j <;> simp [Fin.sum_univ_three] <;> norm_num
  · rw [hd]; norm_num

end Verif.Props
