import Mathlib.Data.Set.Finite.Lattice
import Mathlib.Data.Int.Interval
import Mathlib.Data.Set.Finite.Basic
import Mathlib.Tactic.Linarith
import Mathlib.Tactic.Positivity
import Verif.Lemmas.Dist

/-!
# Only finitely many correspondences lie below a given distance
-/

namespace Verif.Lemmas

open Verif.Model Verif.Spec Matrix

variable {N : ℕ}

/-- Integer matrices with bounded entries. -/
theorem finite_entries (b : ℝ) :
    {L : Matrix (Fin N) (Fin N) ℤ | ∀ i j, |((L i j : ℤ) : ℝ)| ≤ b}.Finite := by
  have h : {L : Matrix (Fin N) (Fin N) ℤ | ∀ i j, |((L i j : ℤ) : ℝ)| ≤ b} ⊆
      Set.pi Set.univ fun _ : Fin N => Set.pi Set.univ fun _ : Fin N => Set.Icc (-⌈b⌉) ⌈b⌉ := by
    intro L hL i _ j _
    have := abs_le.mp (hL i j)
    have hb := Int.le_ceil b
    constructor
    · have : ((-⌈b⌉ : ℤ) : ℝ) ≤ (L i j : ℝ) := by push_cast; linarith
      exact_mod_cast this
    · have : (L i j : ℝ) ≤ (⌈b⌉ : ℝ) := by linarith
      exact_mod_cast this
  exact Set.Finite.subset (Set.Finite.pi fun _ => Set.Finite.pi fun _ => Set.finite_Icc _ _) h

/-- Bounded images under invertible maps. -/
theorem finite_image {A B : Matrix (Fin N) (Fin N) ℝ} (hA : A.det ≠ 0) (hB : B.det ≠ 0) (b : ℝ) :
    {L : Matrix (Fin N) (Fin N) ℤ | ∀ i j, ((A * intMat ℝ L * B) i j) ^ 2 ≤ b}.Finite := by
  refine (finite_entries (∑ i, ∑ j, ∑ k, ∑ l, |A⁻¹ i j| * (1 + b) * |B⁻¹ k l|)).subset ?_
  intro L hL i j
  have hA' : A⁻¹ * A = 1 := Matrix.nonsing_inv_mul _ (isUnit_iff_ne_zero.mpr hA)
  have hB' : B * B⁻¹ = 1 := Matrix.mul_nonsing_inv _ (isUnit_iff_ne_zero.mpr hB)
  set X := A * intMat ℝ L * B with hX
  have e : intMat ℝ L = A⁻¹ * X * B⁻¹ := by
    rw [hX]
    calc intMat ℝ L = (A⁻¹ * A) * intMat ℝ L * (B * B⁻¹) := by rw [hA', hB']; simp
      _ = _ := by simp only [Matrix.mul_assoc]
  have hb : ∀ i j, |X i j| ≤ 1 + b := by
    intro i j
    have h := hL i j
    have h0 : 0 ≤ b := le_trans (sq_nonneg _) h
    rw [abs_le]
    constructor <;> nlinarith [h]
  have e1 : ((L i j : ℤ) : ℝ) = ∑ k, (∑ l, A⁻¹ i l * X l k) * B⁻¹ k j := by
    have : intMat ℝ L i j = (A⁻¹ * X * B⁻¹) i j := by rw [← e]
    rw [Matrix.mul_apply] at this
    simpa [intMat, Matrix.mul_apply] using this
  have h0 : ∀ i j k l, 0 ≤ |A⁻¹ i j| * (1 + b) * |B⁻¹ k l| := by
    intro i' j' k' l'
    have : 0 ≤ 1 + b := le_trans (abs_nonneg _) (hb i j)
    positivity
  show |((L i j : ℤ) : ℝ)| ≤ _
  rw [e1]
  calc |∑ k, (∑ l, A⁻¹ i l * X l k) * B⁻¹ k j|
      ≤ ∑ k, |(∑ l, A⁻¹ i l * X l k) * B⁻¹ k j| := Finset.abs_sum_le_sum_abs _ _
    _ ≤ ∑ k, ∑ l, |A⁻¹ i l| * (1 + b) * |B⁻¹ k j| := by
        refine Finset.sum_le_sum fun k _ => ?_
        rw [Finset.sum_mul]
        refine (Finset.abs_sum_le_sum_abs _ _).trans (Finset.sum_le_sum fun l _ => ?_)
        rw [abs_mul, abs_mul]
        exact mul_le_mul_of_nonneg_right (mul_le_mul_of_nonneg_left (hb l k) (abs_nonneg _))
          (abs_nonneg _)
    _ = ∑ l, ∑ k, |A⁻¹ i l| * (1 + b) * |B⁻¹ k j| := Finset.sum_comm
    _ ≤ ∑ l, ∑ k, ∑ m, |A⁻¹ i l| * (1 + b) * |B⁻¹ k m| :=
        Finset.sum_le_sum fun l _ => Finset.sum_le_sum fun k _ =>
          Finset.single_le_sum (f := fun m => |A⁻¹ i l| * (1 + b) * |B⁻¹ k m|)
            (fun m _ => h0 i l k m) (Finset.mem_univ j)
    _ ≤ _ := Finset.single_le_sum
        (f := fun i => ∑ l, ∑ k, ∑ m, |A⁻¹ i l| * (1 + b) * |B⁻¹ k m|)
        (fun i' _ => Finset.sum_nonneg fun l _ => Finset.sum_nonneg fun k _ =>
          Finset.sum_nonneg fun m _ => h0 i' l k m) (Finset.mem_univ i)

theorem sq_entry_le_mulT (X : Matrix (Fin N) (Fin N) ℝ) (i j : Fin N) : X i j ^ 2 ≤ (X * Xᵀ) i i := by
  rw [Matrix.mul_apply]
  simp only [Matrix.transpose_apply]
  have := Finset.single_le_sum (f := fun j => X i j * X i j) (fun j _ => mul_self_nonneg _)
    (Finset.mem_univ j)
  simpa [sq] using this

theorem sq_entry_le_fro (X : Matrix (Fin N) (Fin N) ℝ) (i j : Fin N) : X i j ^ 2 ≤ fro X := by
  unfold fro
  refine le_trans ?_ (Finset.single_le_sum (f := fun i => ∑ j, X i j ^ 2)
    (fun i _ => Finset.sum_nonneg fun j _ => sq_nonneg _) (Finset.mem_univ i))
  exact Finset.single_le_sum (f := fun j => X i j ^ 2) (fun j _ => sq_nonneg _) (Finset.mem_univ j)

theorem cauchy_finite {E1 E2inv : Matrix (Fin N) (Fin N) ℝ} (h1 : E1.det ≠ 0) (h2 : E2inv.det ≠ 0)
    (c : ℝ) : {L | cauchyDist L E1 E2inv < c}.Finite := by
  refine (finite_image h1 h2 (2 + c)).subset ?_
  intro L hL i j
  have hL : cauchyDist L E1 E2inv < c := hL
  refine (sq_entry_le_mulT _ i j).trans ?_
  rw [cauchyDist_eq] at hL
  have := (sq_entry_le_fro (Cinv L E1 E2inv - 1) i i).trans hL.le
  have e : (Cinv L E1 E2inv - 1) i i = (Finv L E1 E2inv * (Finv L E1 E2inv)ᵀ) i i - 1 := by
    simp [Cinv, Matrix.sub_apply]
  rw [e] at this
  change (Finv L E1 E2inv * (Finv L E1 E2inv)ᵀ) i i ≤ _
  nlinarith [this]

theorem eric_finite {E1 E2 : Matrix (Fin N) (Fin N) ℝ} (h1 : E1.det ≠ 0) (h2 : E2.det ≠ 0)
    (c : ℝ) : {L | ericDist L E1 E2 < c}.Finite := by
  have h2' : (E2ᵀ * E2).det ≠ 0 := by
    rw [det_mul, det_transpose]; exact mul_ne_zero h2 h2
  set g := E2ᵀ * E2 with hg
  refine (finite_image h1 (B := 1) (by simp) (1 + c * fro g + ∑ i, |g i i|)).subset ?_
  intro L hL i j
  have hL : ericDist L E1 E2 < c := hL
  rw [Matrix.mul_one]
  unfold ericDist at hL
  simp only [← fro_eq_trace] at hL
  have hlt : fro ((intMat ℝ L)ᵀ * (E1ᵀ * E1 * intMat ℝ L) - g) ≤ c * fro g := by
    rcases (fro_nonneg g).eq_or_lt with h0 | h0
    · have hg0 := fro_eq_zero.mp h0.symm
      rcases Nat.eq_zero_or_pos N with rfl | hN
      · exact i.elim0
      · rw [hg0] at h2'
        haveI : Nonempty (Fin N) := ⟨i⟩
        simp at h2'
    · rw [div_lt_iff₀ h0] at hL
      exact hL.le
  have h3 := (sq_entry_le_fro _ j j).trans hlt
  have e : ((intMat ℝ L)ᵀ * (E1ᵀ * E1 * intMat ℝ L) - g) j j =
      ((E1 * intMat ℝ L)ᵀ * ((E1 * intMat ℝ L)ᵀ)ᵀ) j j - g j j := by
    rw [Matrix.sub_apply, Matrix.transpose_transpose, Matrix.transpose_mul]
    simp only [Matrix.mul_assoc]
  rw [e] at h3
  have h4 := sq_entry_le_mulT ((E1 * intMat ℝ L)ᵀ) j i
  rw [Matrix.transpose_apply] at h4
  have h5 : g j j ≤ ∑ i, |g i i| := (le_abs_self _).trans
    (Finset.single_le_sum (f := fun i => |g i i|) (fun _ _ => abs_nonneg _) (Finset.mem_univ j))
  nlinarith [h3, h4, h5]

theorem strain_finite {E1 E2inv : Matrix (Fin 3) (Fin 3) ℝ} (h1 : E1.det ≠ 0) (h2 : E2inv.det ≠ 0)
    (eig : Matrix (Fin 3) (Fin 3) ℝ → Fin 3 → ℝ)
    (heig : ∀ A : Matrix (Fin 3) (Fin 3) ℝ, Aᵀ = A → IsEigenvalues A (eig A))
    (c : ℝ) : {L | strainDist eig L E1 E2inv < c}.Finite := by
  refine (finite_image h1 h2 (6 + 2 * c)).subset ?_
  intro L hL i j
  have hL : strainDist eig L E1 E2inv < c := hL
  refine (sq_entry_le_mulT _ i j).trans ?_
  change Cinv L E1 E2inv i i ≤ _
  have hC := Cinv_posSemidef L E1 E2inv
  have hev := heig _ (Cinv_symm L E1 E2inv)
  have h0 := eigenvalues_nonneg hC hev
  have htr : (Cinv L E1 E2inv).trace = ∑ i, eig (Cinv L E1 E2inv) i := by
    have := hC.1.trace_eq_sum_eigenvalues
    have h' := sum_eigenvalues_congr (isEigenvalues_hermitian hC.1) hev rfl (fun x => x)
    rw [this]
    simpa using h'
  have hd : ∀ k, 0 ≤ Cinv L E1 E2inv k k := fun k =>
    (sq_nonneg _).trans (sq_entry_le_mulT (Finv L E1 E2inv) k i)
  have hle : Cinv L E1 E2inv i i ≤ (Cinv L E1 E2inv).trace := by
    unfold Matrix.trace
    exact Finset.single_le_sum (f := fun k => Matrix.diag (Cinv L E1 E2inv) k) (fun k _ => hd k)
      (Finset.mem_univ i)
  refine hle.trans ?_
  rw [htr]
  unfold strainDist at hL
  simp only at hL
  have hs : ∀ i, 2 * Real.sqrt (eig (Cinv L E1 E2inv) i) ≤ eig (Cinv L E1 E2inv) i / 2 + 2 := by
    intro i
    have := Real.sq_sqrt (h0 i)
    nlinarith [sq_nonneg (Real.sqrt (eig (Cinv L E1 E2inv) i) - 2)]
  rw [Fin.sum_univ_three] at hL ⊢
  rw [Fin.sum_univ_three] at hL
  linarith [hs 0, hs 1, hs 2]

end Verif.Lemmas
