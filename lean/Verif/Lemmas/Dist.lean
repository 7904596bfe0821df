import Verif.Model.Dist
import Verif.Spec.Dist
import Mathlib.Analysis.Matrix.Spectrum
import Mathlib.Analysis.Matrix.PosDef
import Mathlib.Algebra.Order.Star.Real
import Mathlib.Analysis.Calculus.Deriv.Pow
import Mathlib.Analysis.Calculus.Deriv.Mul

/-!
# Lemmas about distances
-/

namespace Verif.Lemmas

open Matrix Verif.Model Verif.Spec

variable {N : ℕ}

/-- squared Frobenius norm -/
def fro (A : Matrix (Fin N) (Fin N) ℝ) : ℝ := ∑ i, ∑ j, A i j ^ 2

theorem fro_eq_trace (A : Matrix (Fin N) (Fin N) ℝ) : fro A = (Aᵀ * A).trace := by
  unfold fro
  rw [Finset.sum_comm]
  simp only [Matrix.trace, Matrix.diag, Matrix.mul_apply, Matrix.transpose_apply, sq]

theorem fro_nonneg (A : Matrix (Fin N) (Fin N) ℝ) : 0 ≤ fro A :=
  Finset.sum_nonneg (fun _ _ => Finset.sum_nonneg (fun _ _ => sq_nonneg _))

theorem fro_eq_zero {A : Matrix (Fin N) (Fin N) ℝ} : fro A = 0 ↔ A = 0 := by
  constructor
  · intro h
    ext i j
    have h1 := (Finset.sum_eq_zero_iff_of_nonneg
      (fun _ _ => Finset.sum_nonneg (fun _ _ => sq_nonneg _))).mp h i (Finset.mem_univ i)
    have h2 := (Finset.sum_eq_zero_iff_of_nonneg (fun _ _ => sq_nonneg _)).mp h1 j (Finset.mem_univ j)
    simpa using h2
  · rintro rfl
    simp [fro]

theorem isOrtho_comm {Q : Matrix (Fin N) (Fin N) ℝ} (h : IsOrtho Q) : Q * Qᵀ = 1 :=
  mul_eq_one_comm.mp h

theorem isOrtho_transpose {Q : Matrix (Fin N) (Fin N) ℝ} (h : IsOrtho Q) : IsOrtho Qᵀ := by
  unfold IsOrtho
  rw [Matrix.transpose_transpose]
  exact isOrtho_comm h

theorem isOrtho_one : IsOrtho (1 : Matrix (Fin N) (Fin N) ℝ) := by simp [IsOrtho]

theorem isOrtho_mul {Q R : Matrix (Fin N) (Fin N) ℝ} (hQ : IsOrtho Q) (hR : IsOrtho R) :
    IsOrtho (Q * R) := by
  unfold IsOrtho at *
  rw [Matrix.transpose_mul, Matrix.mul_assoc, ← Matrix.mul_assoc Qᵀ, hQ, Matrix.one_mul, hR]

theorem fro_conj {Q : Matrix (Fin N) (Fin N) ℝ} (hQ : IsOrtho Q) (A : Matrix (Fin N) (Fin N) ℝ) :
    fro (Q * A * Qᵀ) = fro A := by
  have h1 := isOrtho_comm hQ
  have h2 : Qᵀ * Q = 1 := hQ
  rw [fro_eq_trace, fro_eq_trace]
  have : (Q * A * Qᵀ)ᵀ * (Q * A * Qᵀ) = Q * (Aᵀ * A) * Qᵀ := by
    rw [Matrix.transpose_mul, Matrix.transpose_mul, Matrix.transpose_transpose]
    calc Q * (Aᵀ * Qᵀ) * (Q * A * Qᵀ) = Q * (Aᵀ * ((Qᵀ * Q) * A)) * Qᵀ := by
          simp only [Matrix.mul_assoc]
      _ = _ := by rw [h2, Matrix.one_mul]
  rw [this, Matrix.trace_mul_comm, ← Matrix.mul_assoc, h2, Matrix.one_mul]

theorem intMat_mul {K : Type} [Ring K] (A B : Matrix (Fin N) (Fin N) ℤ) : intMat K (A * B) = intMat K A * intMat K B := by
  ext i j
  simp [intMat, Matrix.mul_apply]

theorem cauchyDist_eq (L : Matrix (Fin N) (Fin N) ℤ) (E1 E2inv : Matrix (Fin N) (Fin N) ℝ) :
    cauchyDist L E1 E2inv = fro (Cinv L E1 E2inv - 1) := by
  unfold cauchyDist fro
  simp only [sq]

/-- the deformation for an equivalent correspondence -/
theorem Finv_equiv {E1 E2 E2inv : Matrix (Fin N) (Fin N) ℝ} (hE2 : E2 * E2inv = 1)
    {M1 M2 L : Matrix (Fin N) (Fin N) ℤ} {Q1 Q2 : Matrix (Fin N) (Fin N) ℝ}
    (h1 : Q1 * E1 = E1 * intMat ℝ M1) (h2 : Q2 * E2 = E2 * intMat ℝ M2) :
    Finv (M1 * L * M2) E1 E2inv = Q1 * Finv L E1 E2inv * Q2 := by
  have hE2' : E2inv * E2 = 1 := mul_eq_one_comm.mp hE2
  have h3 : intMat ℝ M2 * E2inv = E2inv * Q2 := by
    calc intMat ℝ M2 * E2inv = E2inv * (E2 * intMat ℝ M2) * E2inv := by
          rw [← Matrix.mul_assoc, hE2', Matrix.one_mul]
      _ = E2inv * Q2 * (E2 * E2inv) := by rw [← h2]; simp only [Matrix.mul_assoc]
      _ = _ := by rw [hE2, Matrix.mul_one]
  unfold Finv
  rw [intMat_mul, intMat_mul]
  calc E1 * (intMat ℝ M1 * intMat ℝ L * intMat ℝ M2) * E2inv
      = (E1 * intMat ℝ M1) * intMat ℝ L * (intMat ℝ M2 * E2inv) := by simp only [Matrix.mul_assoc]
    _ = _ := by rw [← h1, h3]; simp only [Matrix.mul_assoc]

theorem Cinv_of_Finv {E1 E2inv E1' E2inv' : Matrix (Fin N) (Fin N) ℝ} {L L' : Matrix (Fin N) (Fin N) ℤ}
    {Q1 Q2 : Matrix (Fin N) (Fin N) ℝ} (hQ2 : IsOrtho Q2)
    (h : Finv L' E1' E2inv' = Q1 * Finv L E1 E2inv * Q2) :
    Cinv L' E1' E2inv' = Q1 * Cinv L E1 E2inv * Q1ᵀ := by
  unfold Cinv
  rw [h, Matrix.transpose_mul, Matrix.transpose_mul]
  have := isOrtho_comm hQ2
  calc Q1 * Finv L E1 E2inv * Q2 * (Q2ᵀ * ((Finv L E1 E2inv)ᵀ * Q1ᵀ))
      = Q1 * Finv L E1 E2inv * (Q2 * Q2ᵀ) * ((Finv L E1 E2inv)ᵀ * Q1ᵀ) := by
        simp only [Matrix.mul_assoc]
    _ = _ := by rw [this, Matrix.mul_one]; simp only [Matrix.mul_assoc]

theorem cauchyDist_of_Cinv {E1 E2inv E1' E2inv' : Matrix (Fin N) (Fin N) ℝ}
    {L L' : Matrix (Fin N) (Fin N) ℤ} {Q : Matrix (Fin N) (Fin N) ℝ} (hQ : IsOrtho Q)
    (h : Cinv L' E1' E2inv' = Q * Cinv L E1 E2inv * Qᵀ) :
    cauchyDist L' E1' E2inv' = cauchyDist L E1 E2inv := by
  rw [cauchyDist_eq, cauchyDist_eq, h]
  have : Q * Cinv L E1 E2inv * Qᵀ - 1 = Q * (Cinv L E1 E2inv - 1) * Qᵀ := by
    rw [Matrix.mul_sub, Matrix.sub_mul, Matrix.mul_one, isOrtho_comm hQ]
  rw [this, fro_conj hQ]

/-- perfect match in terms of the deformation -/
theorem Cinv_eq_one_iff {E1 E2 E2inv : Matrix (Fin N) (Fin N) ℝ} (hE2 : E2 * E2inv = 1)
    (L : Matrix (Fin N) (Fin N) ℤ) : Cinv L E1 E2inv = 1 ↔ PerfectMatch E1 E2 L := by
  have hE2' : E2inv * E2 = 1 := mul_eq_one_comm.mp hE2
  have hF : Finv L E1 E2inv * E2 = E1 * intMat ℝ L := by
    unfold Finv
    rw [Matrix.mul_assoc, hE2', Matrix.mul_one]
  constructor
  · intro h
    refine ⟨(Finv L E1 E2inv)ᵀ, ?_, ?_⟩
    · unfold IsOrtho
      rw [Matrix.transpose_transpose]
      exact h
    · change _ * (E1 * intMat ℝ L) = E2
      rw [← hF, ← Matrix.mul_assoc, mul_eq_one_comm.mp h, Matrix.one_mul]
  · rintro ⟨Q, hQ, h⟩
    have h' : Q * (E1 * intMat ℝ L) = E2 := h
    have : Finv L E1 E2inv = Qᵀ := by
      calc Finv L E1 E2inv = (Qᵀ * Q) * (E1 * intMat ℝ L) * E2inv := by
            rw [show Qᵀ * Q = 1 from hQ, Matrix.one_mul]; rfl
        _ = Qᵀ * (Q * (E1 * intMat ℝ L)) * E2inv := by simp only [Matrix.mul_assoc]
        _ = Qᵀ := by rw [h', Matrix.mul_assoc, hE2, Matrix.mul_one]
    unfold Cinv
    rw [this, Matrix.transpose_transpose]
    exact hQ

/-! ### eigenvalues -/

theorem isEigenvalues_multiset {A : Matrix (Fin N) (Fin N) ℝ} {lam : Fin N → ℝ}
    (h : IsEigenvalues A lam) : A.charpoly.roots = Finset.univ.val.map lam := by
  unfold IsEigenvalues at h
  rw [h]
  exact Polynomial.roots_multiset_prod_X_sub_C (Finset.univ.val.map lam) ▸ by
    congr 1
    rw [Finset.prod, Multiset.map_map]
    rfl

theorem sum_eigenvalues_congr {A B : Matrix (Fin N) (Fin N) ℝ} {la lb : Fin N → ℝ}
    (ha : IsEigenvalues A la) (hb : IsEigenvalues B lb) (h : A.charpoly = B.charpoly) (f : ℝ → ℝ) :
    ∑ i, f (la i) = ∑ i, f (lb i) := by
  have e : Finset.univ.val.map la = Finset.univ.val.map lb := by
    rw [← isEigenvalues_multiset ha, ← isEigenvalues_multiset hb, h]
  have := congrArg (fun s => (Multiset.map f s).sum) e
  simp only [Multiset.map_map] at this
  exact this

theorem charpoly_conj {Q : Matrix (Fin N) (Fin N) ℝ} (hQ : IsOrtho Q) (A : Matrix (Fin N) (Fin N) ℝ) :
    (Q * A * Qᵀ).charpoly = A.charpoly := by
  rw [Matrix.charpoly_mul_comm, ← Matrix.mul_assoc, show Qᵀ * Q = 1 from hQ, Matrix.one_mul]

theorem Cinv_posSemidef (L : Matrix (Fin N) (Fin N) ℤ) (E1 E2inv : Matrix (Fin N) (Fin N) ℝ) :
    (Cinv L E1 E2inv).PosSemidef := by
  have := Matrix.posSemidef_self_mul_conjTranspose (Finv L E1 E2inv)
  rwa [Matrix.conjTranspose_eq_transpose_of_trivial] at this

theorem Cinv_symm (L : Matrix (Fin N) (Fin N) ℤ) (E1 E2inv : Matrix (Fin N) (Fin N) ℝ) :
    (Cinv L E1 E2inv)ᵀ = Cinv L E1 E2inv := by
  unfold Cinv
  rw [Matrix.transpose_mul, Matrix.transpose_transpose]

theorem isEigenvalues_hermitian {A : Matrix (Fin N) (Fin N) ℝ} (hA : A.IsHermitian) :
    IsEigenvalues A hA.eigenvalues := by
  unfold IsEigenvalues
  rw [hA.charpoly_eq]
  simp

theorem eigenvalues_nonneg {A : Matrix (Fin N) (Fin N) ℝ} (hA : A.PosSemidef) {lam : Fin N → ℝ}
    (h : IsEigenvalues A lam) (i : Fin N) : 0 ≤ lam i := by
  have h1 := isEigenvalues_multiset h
  have h2 := isEigenvalues_multiset (isEigenvalues_hermitian hA.1)
  have : lam i ∈ Finset.univ.val.map lam := Multiset.mem_map_of_mem _ (Finset.mem_univ i)
  rw [← h1, h2] at this
  obtain ⟨j, -, hj⟩ := Multiset.mem_map.mp this
  rw [← hj]
  exact hA.eigenvalues_nonneg j

theorem eq_one_of_eigenvalues {A : Matrix (Fin N) (Fin N) ℝ} (hA : A.IsHermitian) {lam : Fin N → ℝ}
    (h : IsEigenvalues A lam) (h1 : ∀ i, lam i = 1) : A = 1 := by
  have e : Finset.univ.val.map hA.eigenvalues = Finset.univ.val.map lam := by
    rw [← isEigenvalues_multiset (isEigenvalues_hermitian hA), ← isEigenvalues_multiset h]
  have h2 : hA.eigenvalues = fun _ => 1 := by
    funext j
    have : hA.eigenvalues j ∈ Finset.univ.val.map hA.eigenvalues :=
      Multiset.mem_map_of_mem _ (Finset.mem_univ j)
    rw [e] at this
    obtain ⟨i, -, hi⟩ := Multiset.mem_map.mp this
    rw [← hi, h1]
  have := hA.spectral_theorem
  rw [h2] at this
  have hd : diagonal ((RCLike.ofReal : ℝ → ℝ) ∘ fun _ : Fin N => (1 : ℝ)) = 1 := by
    ext i j
    simp [Matrix.diagonal_apply, Matrix.one_apply]
  rw [hd, map_one] at this
  exact this

end Verif.Lemmas
