import Verif.Props.LLL

/-!
# C89: lattice reduction commutes with rotations, reflections and changes of scale

A similarity is a matrix `S` with `Sᵀ S = c 1`, `c > 0`: a rotation or reflection times the factor `√c`.
-/

namespace Verif.Props

open Matrix Verif.Spec Verif.Model Verif.Lemmas

variable {n : ℕ} {S : Matrix (Fin n) (Fin n) ℝ} {c : ℝ}

/-- `S` keeps angles and multiplies all lengths by `√c`. -/
def IsSimilarity (S : Matrix (Fin n) (Fin n) ℝ) (c : ℝ) : Prop := 0 < c ∧ Sᵀ * S = c • 1

theorem IsSimilarity.dot (h : IsSimilarity S c) (u v : Fin n → ℝ) : (S *ᵥ u) ⬝ᵥ (S *ᵥ v) = c * (u ⬝ᵥ v) := by
  rw [Matrix.dotProduct_mulVec, Matrix.vecMul_mulVec, h.2, Matrix.vecMul_smul, Matrix.vecMul_one, smul_dotProduct,
    smul_eq_mul]

theorem IsSimilarity.ratio (h : IsSimilarity S c) (u v w x : Fin n → ℝ) :
    (S *ᵥ u) ⬝ᵥ (S *ᵥ v) / ((S *ᵥ w) ⬝ᵥ (S *ᵥ x)) = u ⬝ᵥ v / (w ⬝ᵥ x) := by
  rw [h.dot, h.dot, mul_div_mul_left _ _ h.1.ne']

theorem gsVec_similar (h : IsSimilarity S c) (C : Cols n) (i : Fin n) :
    gsVec (fun i => S *ᵥ C i) i = S *ᵥ gsVec C i := by
  induction i using WellFoundedLT.induction with
  | ind i ih =>
    rw [gsVec, gsVec, Matrix.mulVec_sub, Matrix.mulVec_sum]
    congr 1
    refine Finset.sum_congr rfl fun j _ => ?_
    rw [ih j.1 j.2, h.ratio, Matrix.mulVec_smul]

theorem gsCoef_similar (h : IsSimilarity S c) (C : Cols n) : gsCoef (fun i => S *ᵥ C i) = gsCoef C := by
  funext i j
  unfold gsCoef
  rw [gsVec_similar h, h.ratio]

theorem gaussReduction_similar (h : IsSimilarity S c) (C : Cols n) :
    gaussReduction (fun i => S *ᵥ C i) = fun i => S *ᵥ gaussReduction C i := by
  funext i
  unfold gaussReduction
  rw [gsCoef_similar h, gaussOps_eq, gaussOps_eq]
  exact opsVec_map _ C (Matrix.mulVecLin S).toAddMonoidHom i

theorem projection_similar (h : IsSimilarity S c) (C : Cols n) (i : Fin n) (x : Fin n → ℝ) :
    projection i (S *ᵥ x) (fun i => S *ᵥ C i) = S *ᵥ projection i x C := by
  unfold projection
  rw [Matrix.mulVec_sum]
  refine Finset.sum_congr rfl fun j _ => ?_
  rw [gsVec_similar h, h.ratio, Matrix.mulVec_smul]

theorem needsSwap_similar (h : IsSimilarity S c) (C : Cols n) :
    needsSwap (fun i => S *ᵥ C i) = needsSwap C := by
  funext i
  unfold needsSwap
  split
  · rw [projection_similar h, projection_similar h, h.dot, h.dot]
    congr 1
    rw [eq_iff_iff, show 4 / 3 * (c * (projection i (C ⟨i + 1, by assumption⟩) C ⬝ᵥ projection i (C ⟨i + 1, by assumption⟩) C))
      = c * (4 / 3 * (projection i (C ⟨i + 1, by assumption⟩) C ⬝ᵥ projection i (C ⟨i + 1, by assumption⟩) C)) by ring]
    exact mul_lt_mul_iff_right₀ h.1
  · rfl

theorem lllLoop_similar (h : IsSimilarity S c) : ∀ (f : ℕ) (B : Cols n) (k : ℕ),
    lllLoop f (fun i => S *ᵥ B i) k =
      (fun i => S *ᵥ (lllLoop f B k).1 i, (lllLoop f B k).2)
  | 0, B, k => rfl
  | f + 1, B, k => by
    unfold lllLoop
    simp only [gaussReduction_similar h]
    rw [show swapping (fun i => S *ᵥ gaussReduction B i) = swapping (gaussReduction B) by
      unfold swapping; rw [needsSwap_similar h]]
    cases swapping (gaussReduction B) with
    | none => rfl
    | some i =>
      simp only
      rw [show swapNext (fun i => S *ᵥ gaussReduction B i) i = fun j => S *ᵥ swapNext (gaussReduction B) i j by
        unfold swapNext
        split <;> rfl]
      exact lllLoop_similar h f _ _

theorem similarity_det (h : IsSimilarity S c) : S.det ≠ 0 := by
  intro h0
  have := congrArg Matrix.det h.2
  rw [Matrix.det_mul, h0, mul_zero, Matrix.det_smul, Matrix.det_one, mul_one] at this
  exact (pow_pos h.1 _).ne this

/-- The result of `LLL` with all vectors transformed by `S`. -/
def LLLResult.map (S : Matrix (Fin n) (Fin n) ℝ) : LLLResult n → LLLResult n
  | .base B => .base (S * B)
  | .pair B b => .pair (S * B) b

/-- **C89**: for every non-singular base and every similarity `S`, `LLL(S E)` is `S LLL(E)`: rotating, reflecting or
rescaling the lattice has the effect it should have on the reduced base. -/
theorem C89_lll_similar {E : Matrix (Fin n) (Fin n) ℝ} (hE : E.det ≠ 0) (h : IsSimilarity S c) :
    lll (S * E) = LLLResult.map S (lll E) := by
  have hloop : lllLoop 1000 (S * E)ᵀ 0 =
      (fun i => S *ᵥ (lllLoop 1000 Eᵀ 0).1 i, (lllLoop 1000 Eᵀ 0).2) := by
    refine Eq.trans ?_ (lllLoop_similar h 1000 Eᵀ 0)
    congr 1
  have hB : (Matrix.of fun i => S *ᵥ (lllLoop 1000 Eᵀ 0).1 i)ᵀ = S * (Matrix.of (lllLoop 1000 Eᵀ 0).1)ᵀ := by
    ext i k
    simp [Matrix.mulVec, dotProduct, Matrix.mul_apply]
  have hne : ((Matrix.of (lllLoop 1000 Eᵀ 0).1)ᵀ).det ≠ 0 := by
    rw [Matrix.det_transpose]
    refine (lllLoop_same 1000 Eᵀ Eᵀ 0 (SameLattice.refl _)).det_ne ?_
    rw [show (Matrix.of Eᵀ : Matrix (Fin n) (Fin n) ℝ) = Eᵀ from rfl, Matrix.det_transpose]
    exact hE
  have hS := similarity_det h
  unfold lll
  simp only [hloop]
  rw [hB]
  set B := (Matrix.of (lllLoop 1000 Eᵀ 0).1)ᵀ with hBdef
  have hsign : (0 < (S * B).det ↔ 0 < (S * E).det) ↔ (0 < B.det ↔ 0 < E.det) := by
    rw [Matrix.det_mul, Matrix.det_mul]
    rcases lt_or_gt_of_ne hS with hs | hs
    · have key : ∀ x : ℝ, x ≠ 0 → (0 < S.det * x ↔ ¬ 0 < x) := by
        intro x hx
        refine ⟨fun hp h0 => ?_, fun h0 => mul_pos_of_neg_of_neg hs (lt_of_le_of_ne (not_lt.mp h0) hx)⟩
        exact absurd (mul_neg_of_neg_of_pos hs h0) (not_lt.mpr hp.le)
      rw [key _ hne, key _ hE, not_iff_not]
    · rw [mul_pos_iff_of_pos_left hs, mul_pos_iff_of_pos_left hs]
  by_cases h1 : (lllLoop 1000 Eᵀ 0).2.1 = 100
  · simp only [h1, if_true]
    rfl
  · simp only [h1, if_false]
    by_cases h2 : (0 < B.det ↔ 0 < E.det)
    · rw [if_pos (hsign.mpr h2), if_pos h2]
      rfl
    · rw [if_neg (fun hc => h2 (hsign.mp hc)), if_neg h2]
      simp only [LLLResult.map, LLLResult.base.injEq]
      ext i j
      simp only [Matrix.of_apply, Matrix.mul_apply]
      split <;> simp

-- a quarter turn of the plane, twice as large
example : IsSimilarity (!![0, -2; 2, 0] : Matrix (Fin 2) (Fin 2) ℝ) 4 := by
  refine ⟨by norm_num, ?_⟩
  ext i j
  fin_cases i <;> fin_cases j <;> norm_num [Matrix.mul_apply, Fin.sum_univ_two]

end Verif.Props
