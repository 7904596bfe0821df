import Verif.Lemmas.MatMath

/-!
# C61, C62: batched matrix helpers and cofactors
-/

namespace Verif.Props

open Matrix Verif.Model Verif.Spec Verif.Lemmas

variable {R : Type*} [CommRing R]

/-! ## C61 -/

/-- **C61** (partial), `mat_dot` under Python 2: row by row the matrix product, for every dimension and
every non-empty batch. -/
theorem C61_dot_partial (d : ℕ) (la lb : List (ℕ → R)) (hl : la.length = lb.length) (h0 : la ≠ []) :
    ∃ lc, matDot .py2 d la lb = .ok lc ∧
      lc.map (matOf d) = List.zipWith (· * ·) (la.map (matOf d)) (lb.map (matOf d)) := by
  refine ⟨_, by simp only [matDot]; rw [if_neg h0], ?_⟩
  rw [List.map_zipWith, List.zipWith_map]
  congr 1
  funext a b
  ext i j
  rw [Matrix.mul_apply]
  exact matDotRow_apply d a b i j

/-- **C61** (partial), `mat_T` under Python 2: row by row the transpose, whatever the uninitialised
array `g` contained. -/
theorem C61_transpose_partial (d : ℕ) (g : ℕ → ℕ → R) (l : List (ℕ → R)) (h0 : l ≠ []) :
    ∃ t, matT .py2 d g l = .ok t ∧ t.map (matOf d) = l.map fun row => (matOf d row)ᵀ := by
  refine ⟨_, by simp only [matT]; rw [if_neg h0], ?_⟩
  apply List.ext_getElem
  · simp
  · intro k h1 h2
    simp only [List.getElem_map, List.getElem_mapIdx]
    ext i j
    exact matTRow_apply d _ _ i j

/-- **C61** (partial), `mat_det` under Python 2: row by row the determinant, for every dimension from 1
on and every batch. -/
theorem C61_det_partial (d : ℕ) (l : List (ℕ → R)) :
    matDet .py2 (d + 1) l = .ok (l.map fun row => (matOf (d + 1) row).det) := by
  unfold matDet
  split
  · rename_i h; subst h; rfl
  · split
    · rename_i h
      obtain rfl : d = 0 := by omega
      congr 1
      apply List.map_congr_left
      intro row _
      simp [matOf]
    · simp only [Except.ok.injEq]
      apply List.map_congr_left
      intro row _
      exact matDetRow_eq d row

/-- `mat_trace` adds the trace to whatever the uninitialised array contained. -/
theorem C61_trace_garbage (d : ℕ) (g : ℕ → R) (l : List (ℕ → R)) (h0 : l ≠ []) :
    matTrace .py2 d g l = .ok (l.mapIdx fun r row => g r + (matOf d row).trace) := by
  simp only [matTrace]
  rw [if_neg h0]
  congr 2
  funext r row
  exact matTrace_row d row (g r)

/-- **C61** fails for `mat_trace`: with an array that was not zero when allocated, the trace of the
2x2 identity comes out as 7. -/
theorem C61_trace_fails : ∃ (g : ℕ → ℤ) (row : ℕ → ℤ), (matOf 2 row) = 1 ∧
    matTrace .py2 2 g [row] = .ok [7] := by
  refine ⟨fun _ => 5, fun k => if k = 0 ∨ k = 3 then 1 else 0, ?_, ?_⟩
  · ext i j; fin_cases i <;> fin_cases j <;> rfl
  · rfl

/-- **C61** fails under Python 3: every non-trivial call raises `NameError`. -/
theorem C61_python3_fails (d : ℕ) (hd : d ≠ 1) (g : ℕ → R) (gT : ℕ → ℕ → R) (l m : List (ℕ → R))
    (h0 : l ≠ []) :
    matDot .py3 d l m = .error .nameError ∧ matT .py3 d gT l = .error .nameError ∧
    matDet .py3 d l = .error .nameError ∧ matTrace .py3 d g l = .error .nameError := by
  simp [matDot, matT, matDet, matTrace, h0, hd]

/-- A concrete batch of two 2x2 matrices. -/
example : matDet .py2 2 [fun k => ([1, 2, 3, 4] : List ℤ).getD k 0,
    fun k => ([2, 0, 0, 5] : List ℤ).getD k 0] = .ok [-2, 10] := by rfl

/-! ## C62 -/

/-- **C62**, `_brute_cof`: for every 3x3 matrix the result is the cofactor matrix, `Cᵀ A = A Cᵀ =
det(A) I`, under both interpreters. -/
theorem C62_brute_cof (A : Matrix (Fin 3) (Fin 3) R) :
    ∃ C, bruteCof A = .ok C ∧ Cᵀ * A = A.det • 1 ∧ A * Cᵀ = A.det • 1 := by
  refine ⟨signedMinors A, ?_, ?_, ?_⟩
  · simp [bruteCof]
  · rw [signedMinors_eq, Matrix.transpose_transpose, Matrix.adjugate_mul]
  · rw [signedMinors_eq, Matrix.transpose_transpose, Matrix.mul_adjugate]

/-- **C62** (partial), `cofactor` under Python 2.  Missing: Python 3 (`C62_python3_fails`). -/
theorem C62_cofactor_partial (A : Matrix (Fin 3) (Fin 3) R) :
    ∃ C, cofactor .py2 A = .ok (some C) ∧ Cᵀ * A = A.det • 1 ∧ A * Cᵀ = A.det • 1 := by
  refine ⟨signedMinors A, ?_, ?_, ?_⟩
  · simp [cofactor]
  · rw [signedMinors_eq, Matrix.transpose_transpose, Matrix.adjugate_mul]
  · rw [signedMinors_eq, Matrix.transpose_transpose, Matrix.mul_adjugate]

/-- Over a field the two identities with `det A ≠ 0` determine the cofactor matrix. -/
theorem C62_unique {K : Type*} [Field K] {A C : Matrix (Fin 3) (Fin 3) K} (h : A.det ≠ 0)
    (hC : Cᵀ * A = A.det • 1) : bruteCof A = .ok C := by
  obtain ⟨D, hD, _, h2⟩ := C62_brute_cof A
  rw [hD]
  congr 1
  have : A.det • Dᵀ = A.det • Cᵀ := by
    have h3 : Cᵀ * (A * Dᵀ) = (Cᵀ * A) * Dᵀ := by rw [Matrix.mul_assoc]
    rw [h2, hC] at h3
    simpa using h3.symm
  have h4 := smul_right_injective _ h this
  exact Matrix.transpose_injective h4

/-- Under Python 3 `cofactor` raises `NameError` on every 3x3 matrix. -/
theorem C62_python3_fails (A : Matrix (Fin 3) (Fin 3) R) :
    cofactor .py3 A = .error .nameError := by simp [cofactor]

/-- Other shapes: `TypeError` for non-square arrays, `ValueError` for square arrays of another size. -/
theorem C62_shape {m n : ℕ} (A : Matrix (Fin m) (Fin n) R) :
    (m ≠ n → bruteCof A = .error .typeError) ∧
    (m = n → m ≠ 3 → bruteCof A = .error .valueError) := by
  constructor
  · intro h; simp [bruteCof, h]
  · rintro rfl h; simp [bruteCof, h]

/-- A concrete matrix with non-zero determinant. -/
example : bruteCof !![(2 : ℤ), 0, 1; 0, 3, 0; 0, 0, 1] =
    .ok !![3, 0, 0; 0, 2, 0; -3, 0, 6] := by
  have : signedMinors !![(2 : ℤ), 0, 1; 0, 3, 0; 0, 0, 1] = !![3, 0, 0; 0, 2, 0; -3, 0, 6] := by
    ext i j
    fin_cases i <;> fin_cases j <;> decide +kernel
  rw [← this]
  simp [bruteCof]

end Verif.Props
