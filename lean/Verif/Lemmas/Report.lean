import Mathlib.LinearAlgebra.Matrix.Charpoly.Coeff
import Mathlib.LinearAlgebra.Matrix.Block
import Mathlib.Data.Real.StarOrdered
import Mathlib.Analysis.SpecialFunctions.Pow.Real
import Mathlib.Tactic.Linarith
import Verif.Spec.Report

/-!
# The square root of a symmetric matrix from a system of eigenvectors
-/

namespace Verif.Lemmas

open Matrix Verif.Spec

variable {N : ℕ}

/-- The Gram matrix of the eigenvectors commutes with every function of the eigenvalues. -/
theorem gram_comm {C V : Matrix (Fin N) (Fin N) ℝ} {lam : Fin N → ℝ} (hC : Cᵀ = C)
    (h : C * V = V * Matrix.diagonal lam) (f : ℝ → ℝ) :
    (Vᵀ * V) * Matrix.diagonal (fun i => f (lam i)) = Matrix.diagonal (fun i => f (lam i)) * (Vᵀ * V) := by
  have h1 : Vᵀ * C = Matrix.diagonal lam * Vᵀ := by
    have := congrArg Matrix.transpose h
    rwa [Matrix.transpose_mul, Matrix.transpose_mul, hC, Matrix.diagonal_transpose] at this
  have h2 : (Vᵀ * V) * Matrix.diagonal lam = Matrix.diagonal lam * (Vᵀ * V) := by
    rw [Matrix.mul_assoc, ← h, ← Matrix.mul_assoc, h1, Matrix.mul_assoc]
  ext i j
  have := congrFun (congrFun h2 i) j
  rw [Matrix.mul_diagonal, Matrix.diagonal_mul] at this
  rw [Matrix.mul_diagonal, Matrix.diagonal_mul]
  by_cases e : lam i = lam j
  · rw [e, mul_comm]
  · have h0 : (Vᵀ * V) i j = 0 := by
      have : (lam j - lam i) * (Vᵀ * V) i j = 0 := by linarith
      rcases mul_eq_zero.mp this with h | h
      · exact absurd (by linarith) e
      · exact h
    rw [h0, zero_mul, mul_zero]

theorem eigen_pos {C V : Matrix (Fin N) (Fin N) ℝ} {lam : Fin N → ℝ} (hC : C.PosDef)
    (h : IsEigenSystem C lam V) (i : Fin N) : 0 < lam i := by
  have hv : V *ᵥ Pi.single i 1 ≠ 0 := by
    intro h0
    have : (Pi.single i (1 : ℝ) : Fin N → ℝ) = 0 := by
      have hu : IsUnit V.det := isUnit_iff_ne_zero.mpr h.1
      have := congrArg (fun x => V⁻¹ *ᵥ x) h0
      simp only [Matrix.mulVec_mulVec, Matrix.nonsing_inv_mul _ hu, Matrix.one_mulVec,
        Matrix.mulVec_zero] at this
      exact this
    exact one_ne_zero (α := ℝ) (by simpa using congrFun this i)
  have he : C *ᵥ (V *ᵥ Pi.single i 1) = lam i • (V *ᵥ Pi.single i 1) := by
    rw [Matrix.mulVec_mulVec, h.2, ← Matrix.mulVec_mulVec]
    rw [Matrix.diagonal_mulVec_single, mul_one]
    rw [← Matrix.mulVec_smul]
    congr 1
    ext j
    simp [Pi.single_apply]
  have hp := hC.dotProduct_mulVec_pos hv
  rw [he, dotProduct_smul, smul_eq_mul] at hp
  have hq : 0 ≤ star (V *ᵥ Pi.single i 1) ⬝ᵥ (V *ᵥ Pi.single i 1) := dotProduct_star_self_nonneg _
  by_contra hneg
  have := mul_nonpos_of_nonpos_of_nonneg (not_lt.mp hneg) hq
  linarith

/-- `V sqrt(diag) V⁻¹` is the positive definite square root. -/
theorem sqrt_spec {C V : Matrix (Fin N) (Fin N) ℝ} {lam : Fin N → ℝ} (hC : C.PosDef)
    (h : IsEigenSystem C lam V) :
    (V * Matrix.diagonal (fun i => Real.sqrt (lam i)) * V⁻¹).PosDef ∧
    (V * Matrix.diagonal (fun i => Real.sqrt (lam i)) * V⁻¹) *
      (V * Matrix.diagonal (fun i => Real.sqrt (lam i)) * V⁻¹) = C ∧
    (V * Matrix.diagonal (fun i => Real.sqrt (lam i)) * V⁻¹).charpoly =
      ∏ i, (Polynomial.X - Polynomial.C (Real.sqrt (lam i))) := by
  have hu : IsUnit V.det := isUnit_iff_ne_zero.mpr h.1
  have hut : IsUnit Vᵀ.det := by rwa [Matrix.det_transpose]
  have hpos := eigen_pos hC h
  have hCt : Cᵀ = C := by simpa using hC.isHermitian.eq
  set D := Matrix.diagonal (fun i => Real.sqrt (lam i)) with hD
  have hcomm : (Vᵀ * V) * D = D * (Vᵀ * V) := gram_comm hCt h.2 Real.sqrt
  have hDD : D * D = Matrix.diagonal lam := by
    rw [hD, Matrix.diagonal_mul_diagonal]
    congr 1
    funext i
    exact Real.mul_self_sqrt (hpos i).le
  have key : V * D * V⁻¹ = Vᵀ⁻¹ * (D * (Vᵀ * V)) * V⁻¹ := by
    rw [← hcomm, ← Matrix.mul_assoc, ← Matrix.mul_assoc, Matrix.nonsing_inv_mul _ hut, Matrix.one_mul]
  refine ⟨?_, ?_, ?_⟩
  · -- W = sqrt D
    set W := Matrix.diagonal (fun i => Real.sqrt (Real.sqrt (lam i))) with hW
    have hWW : W * W = D := by
      rw [hW, Matrix.diagonal_mul_diagonal, hD]
      congr 1
      funext i
      exact Real.mul_self_sqrt (Real.sqrt_nonneg _)
    have hcW : (Vᵀ * V) * W = W * (Vᵀ * V) := gram_comm hCt h.2 (fun x => Real.sqrt (Real.sqrt x))
    have e : V * D * V⁻¹ = (V * W * V⁻¹)ᵀ * (V * W * V⁻¹) := by
      have e1 : (V * W * V⁻¹)ᵀ = V * W * V⁻¹ := by
        have k1 : V * W * V⁻¹ = Vᵀ⁻¹ * (W * (Vᵀ * V)) * V⁻¹ := by
          rw [← hcW, ← Matrix.mul_assoc, ← Matrix.mul_assoc, Matrix.nonsing_inv_mul _ hut,
            Matrix.one_mul]
        have k2 : Vᵀ⁻¹ * (W * (Vᵀ * V)) * V⁻¹ = Vᵀ⁻¹ * W * Vᵀ := by
          simp only [Matrix.mul_assoc]
          rw [Matrix.mul_nonsing_inv _ hu, Matrix.mul_one]
        rw [Matrix.transpose_mul, Matrix.transpose_mul, Matrix.transpose_nonsing_inv,
          hW, Matrix.diagonal_transpose, ← hW, k1, k2, Matrix.mul_assoc]
      rw [e1, ← hWW]
      simp only [Matrix.mul_assoc]
      rw [← Matrix.mul_assoc V⁻¹ V, Matrix.nonsing_inv_mul _ hu, Matrix.one_mul]
    have hinv : Function.Injective ((V * W * V⁻¹).mulVec) := by
      apply Matrix.mulVec_injective_of_isUnit
      rw [Matrix.isUnit_iff_isUnit_det, Matrix.det_mul, Matrix.det_mul, hW, Matrix.det_diagonal]
      refine (hu.mul (isUnit_iff_ne_zero.mpr ?_)).mul ?_
      · exact Finset.prod_ne_zero_iff.mpr fun i _ =>
          (Real.sqrt_pos.mpr (Real.sqrt_pos.mpr (hpos i))).ne'
      · exact Matrix.isUnit_nonsing_inv_det _ hu
    rw [e]
    have := Matrix.PosDef.conjTranspose_mul_self (V * W * V⁻¹) hinv
    simpa using this
  · have : V * D * V⁻¹ * (V * D * V⁻¹) = V * (D * D) * V⁻¹ := by
      simp only [Matrix.mul_assoc]
      rw [← Matrix.mul_assoc V⁻¹ V, Matrix.nonsing_inv_mul _ hu, Matrix.one_mul]
    rw [this, hDD, ← h.2, Matrix.mul_assoc, Matrix.mul_nonsing_inv _ hu, Matrix.mul_one]
  · have hunit : IsUnit V := (Matrix.isUnit_iff_isUnit_det V).mpr hu
    have := Matrix.charpoly_units_conj hunit.unit D
    rw [IsUnit.unit_spec] at this
    rw [this, hD, Matrix.charpoly_diagonal]

end Verif.Lemmas
