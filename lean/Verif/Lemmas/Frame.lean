import Verif.Lemmas.Twin
import Verif.Spec.Frame

/-!
# Lemmas on changes of frame
-/

namespace Verif.Lemmas

open Matrix Verif.Model Verif.Spec

local notation "Mat3" => Matrix (Fin 3) (Fin 3) ℝ

section

variable {Q : Mat3} (hQ : IsOrtho Q)
include hQ

theorem ortho_right : Q * Qᵀ = 1 := mul_eq_one_comm.1 hQ

theorem ortho_det_sq : Q.det * Q.det = 1 := by
  have := congrArg Matrix.det hQ
  rwa [det_mul, det_transpose, det_one] at this

theorem ortho_cancel (M : Mat3) : Qᵀ * (Q * M) = M := by
  rw [← Matrix.mul_assoc, show Qᵀ * Q = 1 from hQ, Matrix.one_mul]

theorem inFrame_mul (A B : Mat3) : inFrame Q A * inFrame Q B = inFrame Q (A * B) := by
  simp only [inFrame, Matrix.mul_assoc, ortho_cancel hQ]

theorem inFrame_det (A : Mat3) : (inFrame Q A).det = A.det := by
  rw [inFrame, det_mul, det_mul, det_transpose]
  linear_combination A.det * ortho_det_sq hQ

theorem inFrame_one : inFrame Q 1 = 1 := by
  rw [inFrame, Matrix.mul_one, ortho_right hQ]

theorem inFrame_sub_one (A : Mat3) : inFrame Q A - 1 = inFrame Q (A - 1) := by
  have h := inFrame_one hQ
  rw [inFrame] at h
  rw [inFrame, inFrame, Matrix.mul_sub, Matrix.sub_mul, h]

theorem inFrame_inv {A : Mat3} (hA : A.det ≠ 0) : (inFrame Q A)⁻¹ = inFrame Q A⁻¹ := by
  refine Matrix.inv_eq_right_inv ?_
  rw [inFrame_mul hQ, Matrix.mul_nonsing_inv _ (isUnit_iff_ne_zero.2 hA), inFrame_one hQ]

theorem inFrame_mulVec (A : Mat3) (x : V3) : inFrame Q A *ᵥ (Q *ᵥ x) = Q *ᵥ (A *ᵥ x) := by
  simp only [inFrame, Matrix.mulVec_mulVec, Matrix.mul_assoc, show Qᵀ * Q = 1 from hQ, Matrix.mul_one]

theorem ortho_dot (x y : V3) : (Q *ᵥ x) ⬝ᵥ (Q *ᵥ y) = x ⬝ᵥ y := by
  rw [Matrix.dotProduct_mulVec, ← Matrix.mulVec_transpose, Matrix.mulVec_mulVec, show Qᵀ * Q = 1 from hQ,
    Matrix.one_mulVec]

theorem inFrame_charpoly (A : Mat3) : (inFrame Q A).charpoly = A.charpoly := by
  rw [inFrame, Matrix.charpoly_mul_comm, ortho_cancel hQ]

theorem inFrame_eigenvalues {A : Mat3} {l : Fin 3 → ℝ} : IsEigenvalues (inFrame Q A) l ↔ IsEigenvalues A l := by
  rw [IsEigenvalues, inFrame_charpoly hQ, IsEigenvalues]

end

theorem inFrame_symm {Q A : Mat3} (hA : Aᵀ = A) : (inFrame Q A)ᵀ = inFrame Q A := by
  simp only [inFrame, transpose_mul, transpose_transpose, hA, Matrix.mul_assoc]

theorem ortho_one : IsOrtho (1 : Mat3) := by simp [IsOrtho]

/-- The sorted eigenvalues depend on the characteristic polynomial only. -/
theorem sorted_of_charpoly {eig eig' : Mat3 → EigRes} {A B : Mat3} (h : EigOK (eig A).vals (eig A).vecs A)
    (h' : EigOK (eig' B).vals (eig' B).vecs B) (hAB : B.charpoly = A.charpoly) :
    (sortEig eig' B).vals = (sortEig eig A).vals := by
  have h1 := sortEig_spec h
  have h2 := sortEig_spec h'
  refine sorted_unique (A := A) ⟨h2.2, ?_⟩ ⟨h1.2, h1.1.eigenvalues⟩
  rw [IsEigenvalues, ← hAB]
  exact h2.1.eigenvalues

theorem simple_inj {A : Mat3} (h : SimpleSpectrum A) {l : Fin 3 → ℝ} (hl : IsEigenvalues A l) : Function.Injective l := by
  obtain ⟨m, hm, hi⟩ := h
  have e : Finset.univ.val.map m = Finset.univ.val.map l := by
    rw [← isEigenvalues_multiset hm, ← isEigenvalues_multiset hl]
  have hn : (Finset.univ.val.map m).Nodup := Multiset.Nodup.map hi Finset.univ.nodup
  rw [e] at hn
  intro i j hij
  exact (Multiset.nodup_map_iff_inj_on Finset.univ.nodup).1 hn i (Finset.mem_univ_val i) j (Finset.mem_univ_val j) hij

theorem simple_strict {A : Mat3} (h : SimpleSpectrum A) {l : Fin 3 → ℝ} (hl : SortedEigenvalues A l) : StrictMono l :=
  hl.1.strictMono_of_injective (simple_inj h hl.2)

/-- A unit eigenvector of a simple eigenvalue is determined up to sign. -/
theorem eigvec_sign {A : Mat3} (hA : Aᵀ = A) {l : Fin 3 → ℝ} (hi : Function.Injective l) {v : Fin 3 → V3}
    (hv : ∀ i, A *ᵥ v i = l i • v i) (h1 : ∀ i, v i ⬝ᵥ v i = 1) {i : Fin 3} {w : V3} (hw : A *ᵥ w = l i • w)
    (hw1 : w ⬝ᵥ w = 1) : ∃ s : ℝ, s * s = 1 ∧ w = s • v i := by
  have ho : ∀ i j, v i ⬝ᵥ v j = if i = j then 1 else 0 := by
    intro a b
    split
    · next h => rw [h, h1]
    · next h => exact eig_orth hA (hv a) (hv b) fun e => h (hi e)
  have hs := congrArg (· *ᵥ w) (frame_sum ho)
  simp only [Matrix.one_mulVec, Matrix.sum_mulVec, Matrix.vecMulVec_mulVec] at hs
  have hz : ∀ k, k ≠ i → v k ⬝ᵥ w = 0 := fun k hk => eig_orth hA (hv k) hw fun e => hk (hi e)
  have hw2 : w = (v i ⬝ᵥ w) • v i := by
    rw [Finset.sum_eq_single i (fun k _ hk => by simp [hz k hk]) (by simp)] at hs
    simpa using hs.symm
  refine ⟨v i ⬝ᵥ w, ?_, hw2⟩
  have := hw1
  rw [hw2] at this
  simpa [h1] using this

/-- Eigenvalues and eigenvectors in another frame, found by another routine. -/
theorem sortEig_frame {eig eig' : Mat3 → EigRes} {Q A : Mat3} (hQ : IsOrtho Q) (hA : Aᵀ = A)
    (h : EigOK (eig A).vals (eig A).vecs A)
    (h' : EigOK (eig' (inFrame Q A)).vals (eig' (inFrame Q A)).vecs (inFrame Q A)) :
    (sortEig eig' (inFrame Q A)).vals = (sortEig eig A).vals ∧
      (SimpleSpectrum A → ∃ s : Fin 3 → ℝ, (∀ i, s i * s i = 1) ∧
        ∀ i, (sortEig eig' (inFrame Q A)).vecs i = s i • Q *ᵥ (sortEig eig A).vecs i) := by
  have hv := sorted_of_charpoly h h' (inFrame_charpoly hQ A)
  refine ⟨hv, fun hs => ?_⟩
  have h1 := sortEig_spec h
  have h2 := sortEig_spec h'
  have hst := simple_strict hs ⟨h1.2, h1.1.eigenvalues⟩
  have : ∀ i, ∃ t : ℝ, t * t = 1 ∧ (sortEig eig' (inFrame Q A)).vecs i = t • Q *ᵥ (sortEig eig A).vecs i := by
    intro i
    refine eigvec_sign (A := inFrame Q A) (v := fun i => Q *ᵥ (sortEig eig A).vecs i) (inFrame_symm hA) hst.injective
      (fun k => ?_) (fun k => ?_) ?_ (h2.1.unit i)
    · rw [inFrame_mulVec hQ, h1.1.eigenvector k, Matrix.mulVec_smul]
    · rw [ortho_dot hQ, h1.1.unit k]
    · rw [h2.1.eigenvector i, hv]
  choose s hs1 hs2 using this
  exact ⟨s, hs1, hs2⟩

end Verif.Lemmas
