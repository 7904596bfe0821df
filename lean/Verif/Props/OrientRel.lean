import Mathlib.LinearAlgebra.Matrix.NonsingularInverse
import Verif.Model.OrientRel

/-!
# C60: directions and planes transform dually
-/

namespace Verif.Props

open Matrix Verif.Model

variable {d : ℕ}

theorem direcTrans_vec {L : Matrix (Fin d) (Fin d) ℝ} (hL : L.det ≠ 0) (v : Fin d → ℝ) :
    direcTrans L (.vec v) = .ok (.vec (L⁻¹ *ᵥ v)) := by
  simp only [direcTrans, asRows, if_neg hL, dite_true, unpackIdx]
  congr 2

theorem planeTrans_vec (L : Matrix (Fin d) (Fin d) ℝ) (v : Fin d → ℝ) :
    planeTrans L (.vec v) = .ok (.vec (Lᵀ *ᵥ v)) := by
  simp only [planeTrans, asRows, dite_true, unpackIdx]
  congr 2

/-- **C60**.  `direc_trans(L, v)` is the direction `w` with `L w = v`. -/
theorem C60_direction {L : Matrix (Fin d) (Fin d) ℝ} (hL : L.det ≠ 0) (v : Fin d → ℝ) :
    ∃ w : Fin d → ℝ, direcTrans L (.vec v) = .ok (.vec w) ∧ L *ᵥ w = v := by
  refine ⟨_, direcTrans_vec hL v, ?_⟩
  rw [Matrix.mulVec_mulVec, Matrix.mul_nonsing_inv _ (isUnit_iff_ne_zero.2 hL), Matrix.one_mulVec]

/-- **C60**.  The pairing of planes and directions is preserved. -/
theorem C60_pairing {L : Matrix (Fin d) (Fin d) ℝ} (hL : L.det ≠ 0) (p v : Fin d → ℝ) :
    ∃ q w : Fin d → ℝ, planeTrans L (.vec p) = .ok (.vec q) ∧ direcTrans L (.vec v) = .ok (.vec w) ∧
      q ⬝ᵥ w = p ⬝ᵥ v := by
  obtain ⟨w, hw, hLw⟩ := C60_direction hL v
  refine ⟨_, w, planeTrans_vec L p, hw, ?_⟩
  rw [← hLw, Matrix.dotProduct_mulVec, Matrix.mulVec_transpose]

/-- **C60**.  Both functions compose along products of correspondences. -/
theorem C60_compose {L M : Matrix (Fin d) (Fin d) ℝ} (hL : L.det ≠ 0) (hM : M.det ≠ 0)
    (v : Fin d → ℝ) :
    (∃ w : Fin d → ℝ, direcTrans L (.vec v) = .ok (.vec w) ∧
      direcTrans (L * M) (.vec v) = direcTrans M (.vec w)) ∧
    (∃ q : Fin d → ℝ, planeTrans L (.vec v) = .ok (.vec q) ∧
      planeTrans (L * M) (.vec v) = planeTrans M (.vec q)) := by
  refine ⟨⟨_, direcTrans_vec hL v, ?_⟩, ⟨_, planeTrans_vec L v, ?_⟩⟩
  · rw [direcTrans_vec (by rw [Matrix.det_mul]; exact mul_ne_zero hL hM), direcTrans_vec hM,
      Matrix.mul_inv_rev, Matrix.mulVec_mulVec]
  · rw [planeTrans_vec, planeTrans_vec, Matrix.transpose_mul, Matrix.mulVec_mulVec]

/-- **C60**.  `direc_trans(L⁻¹, ·)` undoes `direc_trans(L, ·)`, and likewise for planes. -/
theorem C60_inverse {L : Matrix (Fin d) (Fin d) ℝ} (hL : L.det ≠ 0) (v : Fin d → ℝ) :
    (∃ w : Fin d → ℝ, direcTrans L (.vec v) = .ok (.vec w) ∧ direcTrans L⁻¹ (.vec w) = .ok (.vec v)) ∧
    (∃ q : Fin d → ℝ, planeTrans L (.vec v) = .ok (.vec q) ∧ planeTrans L⁻¹ (.vec q) = .ok (.vec v)) := by
  have hu := isUnit_iff_ne_zero.2 hL
  have hi : L⁻¹.det ≠ 0 := by
    rw [Matrix.det_nonsing_inv]; simpa [Ring.inverse_eq_inv'] using hL
  refine ⟨⟨_, direcTrans_vec hL v, ?_⟩, ⟨_, planeTrans_vec L v, ?_⟩⟩
  · rw [direcTrans_vec hi, Matrix.nonsing_inv_nonsing_inv _ hu, Matrix.mulVec_mulVec,
      Matrix.mul_nonsing_inv _ hu, Matrix.one_mulVec]
  · rw [planeTrans_vec, Matrix.mulVec_mulVec, ← Matrix.transpose_mul, Matrix.mul_nonsing_inv _ hu,
      Matrix.transpose_one, Matrix.one_mulVec]

/-- **C60** (partial).  A list of any length but one is transformed element by element.  Missing: lists
of one element, for which the claim is false (`C60_singleton_fails`). -/
theorem C60_list_partial {L : Matrix (Fin d) (Fin d) ℝ} (hL : L.det ≠ 0) {m : ℕ} (hm : m ≠ 1)
    (V : Matrix (Fin m) (Fin d) ℝ) :
    (∃ W : Matrix (Fin m) (Fin d) ℝ, direcTrans L (.mat V) = .ok (.mat W) ∧
      ∀ i, direcTrans L (.vec (V i)) = .ok (.vec (W i))) ∧
    (∃ W : Matrix (Fin m) (Fin d) ℝ, planeTrans L (.mat V) = .ok (.mat W) ∧
      ∀ i, planeTrans L (.vec (V i)) = .ok (.vec (W i))) := by
  refine ⟨⟨(L⁻¹ * Vᵀ)ᵀ, ?_, fun i => ?_⟩, ⟨(Lᵀ * Vᵀ)ᵀ, ?_, fun i => ?_⟩⟩
  · simp only [direcTrans, asRows, if_neg hL, dite_true, unpackIdx]
    congr 1
    rcases m with _ | _ | m
    · rfl
    · exact absurd rfl hm
    · rfl
  · rw [direcTrans_vec hL]; congr 2
  · simp only [planeTrans, asRows, dite_true, unpackIdx]
    congr 1
    rcases m with _ | _ | m
    · rfl
    · exact absurd rfl hm
    · rfl
  · rw [planeTrans_vec]; congr 2

/-- A list of one direction does not come back as a list of one direction, but as a direction. -/
theorem C60_singleton_fails {L : Matrix (Fin d) (Fin d) ℝ} (hL : L.det ≠ 0)
    (V : Matrix (Fin 1) (Fin d) ℝ) :
    (∃ w : Fin d → ℝ, direcTrans L (.mat V) = .ok (.vec w)) ∧
    ¬ ∃ W : Matrix (Fin 1) (Fin d) ℝ, direcTrans L (.mat V) = .ok (.mat W) := by
  have : direcTrans L (.mat V) = .ok (.vec ((L⁻¹ * Vᵀ)ᵀ 0)) := by
    simp only [direcTrans, asRows, if_neg hL, dite_true, unpackIdx]
    congr 1
  refine ⟨⟨_, this⟩, ?_⟩
  rintro ⟨W, hW⟩
  rw [this] at hW
  simp at hW

/-- A singular correspondence raises `LinAlgError`; vectors of a wrong length raise `ValueError`. -/
theorem C60_errors (L : Matrix (Fin d) (Fin d) ℝ) :
    (L.det = 0 → ∀ n, direcTrans L n = .error .linAlgError) ∧
    (∀ {w : ℕ} (v : Fin w → ℝ), w ≠ d → planeTrans L (.vec v) = .error .valueError ∧
      (L.det ≠ 0 → direcTrans L (.vec v) = .error .valueError)) := by
  refine ⟨fun h n => by simp [direcTrans, h], fun v hw => ⟨?_, fun h => ?_⟩⟩
  · simp [planeTrans, asRows, hw]
  · simp [direcTrans, asRows, hw, h]

/-- A concrete correspondence meeting the hypotheses. -/
example : (!![2, 1; 0, 3] : Matrix (Fin 2) (Fin 2) ℝ).det ≠ 0 := by
  rw [Matrix.det_fin_two_of]; norm_num

end Verif.Props
