import Mathlib.LinearAlgebra.Matrix.Transvection
import Mathlib.LinearAlgebra.Matrix.Swap
import Mathlib.Tactic.Ring
import Mathlib.Tactic.Linarith
import Verif.Model.Hnf
import Verif.Spec.Hnf

/-! # Lemmas about the model of `hnf.py` : column operations and `hnfd` -/

namespace Verif.Lemmas

open Matrix Verif.Model Verif.Spec

/-- `M'` arises from `M` by a unimodular change of columns. -/
def ColEq {n : ℕ} (M M' : Matrix (Fin n) (Fin n) ℤ) : Prop :=
  ∃ U : Matrix (Fin n) (Fin n) ℤ, Unimodular U ∧ M' = M * U

theorem unimodular_one {n : ℕ} : Unimodular (1 : Matrix (Fin n) (Fin n) ℤ) := by
  left; simp

theorem unimodular_mul {n : ℕ} {U V : Matrix (Fin n) (Fin n) ℤ} (hU : Unimodular U)
    (hV : Unimodular V) : Unimodular (U * V) := by
  unfold Unimodular at *
  rw [Matrix.det_mul]
  rcases hU with h | h <;> rcases hV with h' | h' <;> simp [h, h']

theorem unimodular_isUnit {n : ℕ} {U : Matrix (Fin n) (Fin n) ℤ} (hU : Unimodular U) :
    IsUnit U.det := by
  rcases hU with h | h <;> simp [h]

theorem unimodular_of_isUnit {n : ℕ} {U : Matrix (Fin n) (Fin n) ℤ} (h : IsUnit U.det) :
    Unimodular U := Int.isUnit_iff.mp h

theorem unimodular_exists_inv {n : ℕ} {U : Matrix (Fin n) (Fin n) ℤ} (hU : Unimodular U) :
    ∃ V, Unimodular V ∧ U * V = 1 ∧ V * U = 1 := by
  have h := unimodular_isUnit hU
  refine ⟨U⁻¹, unimodular_of_isUnit ?_, Matrix.mul_nonsing_inv _ h, Matrix.nonsing_inv_mul _ h⟩
  have : U.det * U⁻¹.det = 1 := by
    rw [← Matrix.det_mul, Matrix.mul_nonsing_inv _ h, Matrix.det_one]
  exact IsUnit.of_mul_eq_one _ (by rw [mul_comm]; exact this)

theorem ColEq.refl {n : ℕ} (M : Matrix (Fin n) (Fin n) ℤ) : ColEq M M :=
  ⟨1, unimodular_one, by simp⟩

theorem ColEq.trans {n : ℕ} {M N P : Matrix (Fin n) (Fin n) ℤ} (h : ColEq M N) (h' : ColEq N P) :
    ColEq M P := by
  obtain ⟨U, hU, rfl⟩ := h
  obtain ⟨V, hV, rfl⟩ := h'
  exact ⟨U * V, unimodular_mul hU hV, by rw [Matrix.mul_assoc]⟩

theorem ColEq.symm {n : ℕ} {M N : Matrix (Fin n) (Fin n) ℤ} (h : ColEq M N) : ColEq N M := by
  obtain ⟨U, hU, rfl⟩ := h
  obtain ⟨V, hV, h1, _⟩ := unimodular_exists_inv hU
  exact ⟨V, hV, by rw [Matrix.mul_assoc, h1, Matrix.mul_one]⟩

theorem ColEq.det {n : ℕ} {M N : Matrix (Fin n) (Fin n) ℤ} (h : ColEq M N) :
    N.det = M.det ∨ N.det = -M.det := by
  obtain ⟨U, hU, rfl⟩ := h
  rw [Matrix.det_mul]
  rcases hU with h | h <;> simp [h]

theorem ColEq.det_ne {n : ℕ} {M N : Matrix (Fin n) (Fin n) ℤ} (h : ColEq M N) (hM : M.det ≠ 0) :
    N.det ≠ 0 := by
  rcases h.det with h' | h' <;> rw [h'] <;> simpa using hM

theorem swapCols_eq {n : ℕ} (M : Matrix (Fin n) (Fin n) ℤ) (a b : Fin n) :
    swapCols M a b = M * Matrix.swap ℤ a b := by
  ext i j
  unfold swapCols
  by_cases hb : j = b
  · subst hb; simp
  · by_cases ha : j = a
    · subst ha; simp [hb]
    · simp [ha, hb, Matrix.mul_swap_of_ne ha hb]

theorem unimodular_swap {n : ℕ} (a b : Fin n) : Unimodular (Matrix.swap ℤ a b) := by
  apply unimodular_of_isUnit
  have : (Matrix.swap ℤ a b).det * (Matrix.swap ℤ a b).det = 1 := by
    rw [← Matrix.det_mul, Matrix.swap_mul_self, Matrix.det_one]
  exact IsUnit.of_mul_eq_one _ this

theorem colEq_swapCols {n : ℕ} (M : Matrix (Fin n) (Fin n) ℤ) (a b : Fin n) :
    ColEq M (swapCols M a b) := ⟨_, unimodular_swap a b, swapCols_eq M a b⟩

theorem addCol_eq {n : ℕ} (M : Matrix (Fin n) (Fin n) ℤ) (c1 c2 : Fin n) (t : ℤ) :
    addCol M c1 c2 t = M * Matrix.transvection c2 c1 t := by
  ext i j
  unfold addCol
  by_cases h : j = c1
  · subst h; simp
  · simp [h, Matrix.mul_transvection_apply_of_ne _ _ _ _ h]

theorem colEq_addCol {n : ℕ} (M : Matrix (Fin n) (Fin n) ℤ) {c1 c2 : Fin n} (h : c1 ≠ c2) (t : ℤ) :
    ColEq M (addCol M c1 c2 t) :=
  ⟨_, Or.inl (Matrix.det_transvection_of_ne _ _ h.symm _), addCol_eq M c1 c2 t⟩

theorem colEq_nonnegRow {n : ℕ} (M : Matrix (Fin n) (Fin n) ℤ) (r : Fin n) :
    ColEq M (nonnegRow M r) := by
  refine ⟨Matrix.diagonal (fun j => if M r j < 0 then -1 else 1), unimodular_of_isUnit ?_, ?_⟩
  · rw [Matrix.det_diagonal]
    refine Finset.prod_induction _ IsUnit (fun _ _ => IsUnit.mul) isUnit_one ?_
    intro j _
    split_ifs <;> simp
  · ext i j
    rw [Matrix.mul_diagonal]
    unfold nonnegRow
    split_ifs <;> simp

theorem nonnegRow_nonneg {m n : ℕ} (M : Matrix (Fin m) (Fin n) ℤ) (r : Fin m) (j : Fin n) :
    0 ≤ nonnegRow M r r j := by
  unfold nonnegRow
  split_ifs with h <;> omega

/-! ### the Euclidean loop -/

theorem step_c2 {m n : ℕ} (M : Matrix (Fin (m + 1)) (Fin n) ℤ) (c1 c2 : Fin n) :
    (swapCols (addCol M c1 c2 (-(Int.fdiv (M 0 c1) (M 0 c2)))) c1 c2) 0 c2
      = Int.fmod (M 0 c1) (M 0 c2) := by
  have := Int.mul_fdiv_add_fmod (M 0 c1) (M 0 c2)
  simp only [swapCols, addCol, if_true]
  linarith [mul_comm (M 0 c2) (Int.fdiv (M 0 c1) (M 0 c2))]

theorem natAbs_fmod_lt (a b : ℤ) (hb : b ≠ 0) : (Int.fmod a b).natAbs < b.natAbs := by
  rcases lt_or_gt_of_ne hb with h | h
  · have e : Int.fmod a b = -Int.fmod (-a) (-b) := by
      simp [Int.neg_fmod_neg]
    have h1 := Int.fmod_nonneg_of_pos (-a) (show 0 < -b by omega)
    have h2 := Int.fmod_lt_of_pos (-a) (show 0 < -b by omega)
    omega
  · have h1 := Int.fmod_nonneg_of_pos a h
    have h2 := Int.fmod_lt_of_pos a h
    omega

/-- The fuel supplied by `gcdCols` is sufficient: the loop ends by its own exit test. -/
theorem gcdLoop_zero {m n : ℕ} (c1 c2 : Fin n) (fuel : ℕ) (M : Matrix (Fin (m + 1)) (Fin n) ℤ)
    (h : (M 0 c2).natAbs ≤ fuel) : gcdLoop c1 c2 fuel M 0 c2 = 0 := by
  induction fuel generalizing M with
  | zero => simp only [gcdLoop]; omega
  | succ k ih =>
    unfold gcdLoop
    split_ifs with h0
    · exact h0
    · apply ih
      rw [step_c2]
      have := natAbs_fmod_lt (M 0 c1) (M 0 c2) h0
      omega

theorem gcdLoop_other {m n : ℕ} (c1 c2 : Fin n) (fuel : ℕ) (M : Matrix (Fin (m + 1)) (Fin n) ℤ)
    (i : Fin (m + 1)) (c : Fin n) (h1 : c ≠ c1) (h2 : c ≠ c2) :
    gcdLoop c1 c2 fuel M i c = M i c := by
  induction fuel generalizing M with
  | zero => rfl
  | succ k ih =>
    unfold gcdLoop
    split_ifs with h0
    · rfl
    · rw [ih]; simp [swapCols, addCol, h1, h2]

theorem gcdLoop_nonneg {m n : ℕ} (c1 c2 : Fin n) (fuel : ℕ) (M : Matrix (Fin (m + 1)) (Fin n) ℤ)
    (h : ∀ c, 0 ≤ M 0 c) (c : Fin n) : 0 ≤ gcdLoop c1 c2 fuel M 0 c := by
  induction fuel generalizing M with
  | zero => exact h c
  | succ k ih =>
    unfold gcdLoop
    split_ifs with h0
    · exact h c
    · apply ih
      intro c'
      by_cases e2 : c' = c2
      · subst e2
        rw [step_c2]
        exact Int.fmod_nonneg (h c1) (h c')
      · by_cases e1 : c' = c1
        · subst e1
          have e3 : c2 ≠ c' := fun h => e2 h.symm
          simp [swapCols, addCol, e2, e3, h c2]
        · simp [swapCols, addCol, e1, e2, h c']

theorem colEq_gcdLoop {n : ℕ} {c1 c2 : Fin (n + 1)} (hc : c1 ≠ c2) (fuel : ℕ)
    (M : Matrix (Fin (n + 1)) (Fin (n + 1)) ℤ) : ColEq M (gcdLoop c1 c2 fuel M) := by
  induction fuel generalizing M with
  | zero => exact ColEq.refl M
  | succ k ih =>
    unfold gcdLoop
    split_ifs with h0
    · exact ColEq.refl M
    · exact ((colEq_addCol M hc _).trans (colEq_swapCols _ c1 c2)).trans (ih _)

theorem gcdCols_zero {m n : ℕ} (M : Matrix (Fin (m + 1)) (Fin n) ℤ) (c1 c2 : Fin n) :
    gcdCols M c1 c2 0 c2 = 0 := gcdLoop_zero _ _ _ _ le_rfl

theorem gcdCols_other {m n : ℕ} (M : Matrix (Fin (m + 1)) (Fin n) ℤ) (c1 c2 : Fin n)
    (i : Fin (m + 1)) (c : Fin n) (h1 : c ≠ c1) (h2 : c ≠ c2) : gcdCols M c1 c2 i c = M i c := by
  unfold gcdCols
  rw [gcdLoop_other _ _ _ _ _ _ h1 h2]
  split_ifs
  · simp [swapCols, h1, h2]
  · rfl

theorem gcdCols_nonneg {m n : ℕ} (M : Matrix (Fin (m + 1)) (Fin n) ℤ) (c1 c2 : Fin n)
    (h : ∀ c, 0 ≤ M 0 c) (c : Fin n) : 0 ≤ gcdCols M c1 c2 0 c := by
  unfold gcdCols
  apply gcdLoop_nonneg
  intro c'
  split_ifs
  · unfold swapCols; split_ifs <;> apply h
  · exact h c'

theorem colEq_gcdCols {n : ℕ} (M : Matrix (Fin (n + 1)) (Fin (n + 1)) ℤ) {c1 c2 : Fin (n + 1)}
    (hc : c1 ≠ c2) : ColEq M (gcdCols M c1 c2) := by
  unfold gcdCols
  simp only
  refine ColEq.trans ?_ (colEq_gcdLoop hc _ _)
  split_ifs
  · exact colEq_swapCols M c1 c2
  · exact ColEq.refl M

/-! ### clearing the first row -/

theorem rev_succ_ne {n : ℕ} (i : Fin (n + 1)) : Fin.rev i.succ ≠ Fin.rev i.castSucc := by
  intro h
  have := Fin.rev_injective h
  simp [Fin.ext_iff] at this

theorem gcdFold_spec {n : ℕ} (l : List (Fin (n + 1))) (hl : l.Pairwise (· < ·))
    (H : Matrix (Fin (n + 2)) (Fin (n + 2)) ℤ) (hH : ∀ c, 0 ≤ H 0 c) :
    let H' := l.foldl (fun H i => gcdCols H (Fin.rev i.succ) (Fin.rev i.castSucc)) H
    ColEq H H' ∧ (∀ c, 0 ≤ H' 0 c) ∧ (∀ i ∈ l, H' 0 (Fin.rev i.castSucc) = 0) ∧
      (∀ c, (∀ i ∈ l, c ≠ Fin.rev i.succ ∧ c ≠ Fin.rev i.castSucc) → H' 0 c = H 0 c) := by
  induction l generalizing H with
  | nil => exact ⟨ColEq.refl H, hH, by simp, by simp⟩
  | cons a l ih =>
    rw [List.pairwise_cons] at hl
    obtain ⟨e, p, z, o⟩ := ih hl.2 (gcdCols H (Fin.rev a.succ) (Fin.rev a.castSucc))
      (gcdCols_nonneg _ _ _ hH)
    refine ⟨(colEq_gcdCols H (rev_succ_ne a)).trans e, p, ?_, ?_⟩
    · intro i hi
      rcases List.mem_cons.mp hi with rfl | hi
      · simp only [List.foldl_cons]
        rw [o, gcdCols_zero]
        intro k hk
        have := hl.1 k hk
        constructor <;> intro h <;> have := Fin.rev_injective h <;>
          simp only [Fin.ext_iff, Fin.val_succ, Fin.val_castSucc] at this <;> omega
      · exact z i hi
    · intro c hc
      simp only [List.foldl_cons]
      rw [o, gcdCols_other]
      · exact (hc a (by simp)).1
      · exact (hc a (by simp)).2
      · exact fun i hi => hc i (by simp [hi])

theorem finRange_pairwise (n : ℕ) : (List.finRange n).Pairwise (· < ·) :=
  List.pairwise_lt_finRange n

theorem gcdRow_spec {n : ℕ} (H : Matrix (Fin (n + 2)) (Fin (n + 2)) ℤ) (hH : ∀ c, 0 ≤ H 0 c) :
    ColEq H (gcdRow H) ∧ (0 ≤ gcdRow H 0 0) ∧ (∀ c, c ≠ 0 → gcdRow H 0 c = 0) := by
  obtain ⟨e, p, z, -⟩ := gcdFold_spec (List.finRange (n + 1)) (finRange_pairwise _) H hH
  refine ⟨e, p 0, ?_⟩
  intro c hc
  have hlt : (n + 1 - (c : ℕ)) < n + 1 := by
    have : (c : ℕ) ≠ 0 := fun h => hc (Fin.ext h)
    omega
  have := z ⟨n + 1 - c, hlt⟩ (List.mem_finRange _)
  have hr : Fin.rev (Fin.castSucc (⟨n + 1 - c, hlt⟩ : Fin (n + 1))) = c := by
    apply Fin.ext
    simp only [Fin.val_rev, Fin.val_castSucc]
    have := c.2
    omega
  rw [hr] at this
  exact this

/-! ### the sub-block -/

/-- The block matrix `diag(1, V)`. -/
def blockOne {n : ℕ} (V : Matrix (Fin n) (Fin n) ℤ) : Matrix (Fin (n + 1)) (Fin (n + 1)) ℤ :=
  fun i j => Fin.cases (Fin.cases 1 (fun _ => 0) j) (fun i' => Fin.cases 0 (fun j' => V i' j') j) i

theorem det_blockOne {n : ℕ} (V : Matrix (Fin n) (Fin n) ℤ) : (blockOne V).det = V.det := by
  rw [Matrix.det_succ_row_zero, Fin.sum_univ_succ]
  have : (blockOne V).submatrix Fin.succ Fin.succ = V := by
    ext i j; simp [blockOne]
  simp [blockOne, this]

@[simp] theorem setSub_zero {n : ℕ} (H : Matrix (Fin (n + 1)) (Fin (n + 1)) ℤ)
    (S : Matrix (Fin n) (Fin n) ℤ) (j : Fin (n + 1)) : setSub H S 0 j = H 0 j := rfl
@[simp] theorem setSub_succ_zero {n : ℕ} (H : Matrix (Fin (n + 1)) (Fin (n + 1)) ℤ)
    (S : Matrix (Fin n) (Fin n) ℤ) (i : Fin n) : setSub H S i.succ 0 = H i.succ 0 := rfl
@[simp] theorem setSub_succ_succ {n : ℕ} (H : Matrix (Fin (n + 1)) (Fin (n + 1)) ℤ)
    (S : Matrix (Fin n) (Fin n) ℤ) (i j : Fin n) : setSub H S i.succ j.succ = S i j := rfl

theorem colEq_setSub {n : ℕ} (H : Matrix (Fin (n + 1)) (Fin (n + 1)) ℤ)
    (h0 : ∀ c, c ≠ 0 → H 0 c = 0) (S : Matrix (Fin n) (Fin n) ℤ)
    (hS : ColEq (H.submatrix Fin.succ Fin.succ) S) : ColEq H (setSub H S) := by
  obtain ⟨V, hV, rfl⟩ := hS
  refine ⟨blockOne V, ?_, ?_⟩
  · unfold Unimodular; rw [det_blockOne]; exact hV
  · ext i j
    rw [Matrix.mul_apply, Fin.sum_univ_succ]
    refine Fin.cases ?_ (fun i => ?_) i
    · refine Fin.cases ?_ (fun j => ?_) j
      · simp [blockOne]
      · have : ∀ k : Fin n, H 0 k.succ = 0 := fun k => h0 _ (Fin.succ_ne_zero k)
        simp [blockOne, this]
    · refine Fin.cases ?_ (fun j => ?_) j
      · simp [blockOne]
      · simp [blockOne, Matrix.mul_apply]

/-! ### the last loop -/

theorem addCol_addCol {m n : ℕ} (M : Matrix (Fin m) (Fin n) ℤ) {c1 c2 : Fin n} (h : c2 ≠ c1)
    (s t : ℤ) : addCol (addCol M c1 c2 s) c1 c2 t = addCol M c1 c2 (s + t) := by
  ext i j
  unfold addCol
  simp only [h, if_false]
  split_ifs
  · ring
  · rfl

theorem addCol_zero' {m n : ℕ} (M : Matrix (Fin m) (Fin n) ℤ) (c1 c2 : Fin n) :
    addCol M c1 c2 0 = M := by
  ext i j; unfold addCol; split_ifs <;> simp

theorem reduceRow_form {n : ℕ} (py : Py) (H H' : Matrix (Fin (n + 1)) (Fin (n + 1)) ℤ)
    (i : Fin (n + 1)) (hi : i ≠ 0) (h : reduceRow py H i = .ok H') :
    ∃ t, H' = addCol H 0 i t := by
  unfold reduceRow at h
  have key : ∀ (K : Matrix (Fin (n + 1)) (Fin (n + 1)) ℤ) (s : ℤ), K = addCol H 0 i s →
      (if K i 0 ≤ -K i i then
      match floorDiv py (-K i 0) (K i i) with
      | .error e => .error e
      | .ok t => .ok (addCol K 0 i t)
    else .ok K : Except Err _) = .ok H' → ∃ t, H' = addCol H 0 i t := by
    intro K s hK h
    split_ifs at h with h1
    · cases hf : floorDiv py (-K i 0) (K i i) with
      | error e => simp [hf] at h
      | ok t =>
        simp only [hf, Except.ok.injEq] at h
        exact ⟨s + t, by rw [← h, hK, addCol_addCol _ hi]⟩
    · simp only [Except.ok.injEq] at h
      exact ⟨s, by rw [← h, hK]⟩
  by_cases h1 : 0 < H i 0
  · simp only [h1, if_true] at h
    cases hf : ceilDiv py (H i 0) (H i i) with
    | error e => simp [hf] at h
    | ok t =>
      simp only [hf] at h
      exact key _ _ rfl h
  · simp only [h1, if_false] at h
    exact key H 0 (addCol_zero' _ _ _).symm h

theorem reduceRow_ok {n : ℕ} (py : Py) (H : Matrix (Fin (n + 1)) (Fin (n + 1)) ℤ)
    (i : Fin (n + 1)) (hi : i ≠ 0) (hd : H i i ≠ 0) : ∃ H', reduceRow py H i = .ok H' := by
  have hc : ∀ a b : ℤ, b ≠ 0 → ∃ t, ceilDiv py a b = .ok t := by
    intro a b hb; unfold ceilDiv; cases py <;> simp [hb]
  have hf : ∀ a b : ℤ, b ≠ 0 → ∃ t, floorDiv py a b = .ok t := by
    intro a b hb; unfold floorDiv; cases py <;> simp [hb]
  unfold reduceRow
  have key : ∀ K : Matrix (Fin (n + 1)) (Fin (n + 1)) ℤ, K i i ≠ 0 → ∃ H', (if K i 0 ≤ -K i i then
      match floorDiv py (-K i 0) (K i i) with
      | .error e => .error e
      | .ok t => .ok (addCol K 0 i t)
    else .ok K : Except Err _) = .ok H' := by
    intro K hK
    obtain ⟨t, ht⟩ := hf (-K i 0) (K i i) hK
    simp only [ht]
    split_ifs <;> exact ⟨_, rfl⟩
  by_cases h1 : 0 < H i 0
  · obtain ⟨t, ht⟩ := hc (H i 0) (H i i) hd
    simp only [h1, if_true, ht]
    refine key (addCol H 0 i (-t)) ?_
    simpa [addCol, hi] using hd
  · simp only [h1, if_false]
    exact key H hd

theorem reduceRow_range {n : ℕ} (H H' : Matrix (Fin (n + 1)) (Fin (n + 1)) ℤ)
    (i : Fin (n + 1)) (hi : i ≠ 0) (hd : 0 < H i i) (h : reduceRow .py3 H i = .ok H') :
    -H' i i < H' i 0 ∧ H' i 0 ≤ 0 := by
  have hd' : H i i ≠ 0 := ne_of_gt hd
  have key : ∀ K : Matrix (Fin (n + 1)) (Fin (n + 1)) ℤ, 0 < K i i → K i 0 ≤ 0 →
      (if K i 0 ≤ -K i i then
      match floorDiv .py3 (-K i 0) (K i i) with
      | .error e => .error e
      | .ok t => .ok (addCol K 0 i t)
    else .ok K : Except Err _) = .ok H' → -H' i i < H' i 0 ∧ H' i 0 ≤ 0 := by
    intro K hK hle h
    split_ifs at h with h1
    · simp only [floorDiv, ne_of_gt hK, if_false, Except.ok.injEq] at h
      rw [← h]
      have e1 := Int.mul_fdiv_add_fmod (-K i 0) (K i i)
      have e2 := Int.fmod_nonneg_of_pos (-K i 0) hK
      have e3 := Int.fmod_lt_of_pos (-K i 0) hK
      simp only [addCol, hi, if_true, if_false]
      rw [mul_comm] at e1
      constructor <;> linarith
    · simp only [Except.ok.injEq] at h
      rw [← h]
      exact ⟨by omega, hle⟩
  unfold reduceRow at h
  by_cases h1 : 0 < H i 0
  · simp only [h1, if_true, ceilDiv, hd', if_false] at h
    refine key _ ?_ ?_ h
    · simpa [addCol, hi] using hd
    · simp only [addCol, if_true]
      have e1 := Int.mul_fdiv_add_fmod (-H i 0) (H i i)
      have e2 := Int.fmod_nonneg_of_pos (-H i 0) hd
      have e3 := Int.fmod_lt_of_pos (-H i 0) hd
      rw [mul_comm] at e1
      linarith
  · simp only [h1, if_false] at h
    exact key H hd (by omega) h

theorem reduceRows_colEq {n : ℕ} (py : Py) (l : List (Fin (n + 1))) (hl : ∀ i ∈ l, i ≠ 0)
    (H H' : Matrix (Fin (n + 1)) (Fin (n + 1)) ℤ) (h : reduceRows py l H = .ok H') :
    ColEq H H' ∧ ∀ i j, j ≠ 0 → H' i j = H i j := by
  induction l generalizing H with
  | nil =>
    simp only [reduceRows, Except.ok.injEq] at h
    subst h
    exact ⟨ColEq.refl _, fun _ _ _ => rfl⟩
  | cons a l ih =>
    unfold reduceRows at h
    cases hr : reduceRow py H a with
    | error e => simp [hr] at h
    | ok K =>
      simp only [hr] at h
      obtain ⟨t, rfl⟩ := reduceRow_form py H K a (hl a (by simp)) hr
      obtain ⟨e, o⟩ := ih (fun i hi => hl i (by simp [hi])) _ h
      refine ⟨(colEq_addCol H (hl a (by simp)).symm t).trans e, ?_⟩
      intro i j hj
      rw [o i j hj]
      simp [addCol, hj]

theorem reduceRows_ok {n : ℕ} (py : Py) (l : List (Fin (n + 1))) (hl : ∀ i ∈ l, i ≠ 0)
    (H : Matrix (Fin (n + 1)) (Fin (n + 1)) ℤ) (hd : ∀ i, i ≠ 0 → H i i ≠ 0) :
    ∃ H', reduceRows py l H = .ok H' := by
  induction l generalizing H with
  | nil => exact ⟨H, rfl⟩
  | cons a l ih =>
    unfold reduceRows
    obtain ⟨K, hr⟩ := reduceRow_ok py H a (hl a (by simp)) (hd a (hl a (by simp)))
    simp only [hr]
    obtain ⟨t, rfl⟩ := reduceRow_form py H K a (hl a (by simp)) hr
    apply ih (fun i hi => hl i (by simp [hi]))
    intro i hi
    simpa [addCol, hi] using hd i hi

theorem reduceRows_small {n : ℕ} (py : Py) (l : List (Fin (n + 1))) (hl : ∀ i ∈ l, i ≠ 0)
    (H H' : Matrix (Fin (n + 1)) (Fin (n + 1)) ℤ) (h : reduceRows py l H = .ok H')
    (hu : ∀ i j, i < j → H i j = 0) (k : Fin (n + 1)) (hk : ∀ i ∈ l, k < i) :
    H' k 0 = H k 0 := by
  induction l generalizing H with
  | nil =>
    simp only [reduceRows, Except.ok.injEq] at h
    rw [h]
  | cons a l ih =>
    unfold reduceRows at h
    cases hr : reduceRow py H a with
    | error e => simp [hr] at h
    | ok K =>
      simp only [hr] at h
      obtain ⟨t, rfl⟩ := reduceRow_form py H K a (hl a (by simp)) hr
      rw [ih (fun i hi => hl i (by simp [hi])) _ h ?_ (fun i hi => hk i (by simp [hi]))]
      · simp [addCol, hu k a (hk a (by simp))]
      · intro i j hij
        have : j ≠ 0 := Fin.ne_zero_of_lt hij
        simp [addCol, this, hu i j hij]

theorem reduceRows_range {n : ℕ} (l : List (Fin (n + 1))) (hl : ∀ i ∈ l, i ≠ 0)
    (hp : l.Pairwise (· < ·))
    (H H' : Matrix (Fin (n + 1)) (Fin (n + 1)) ℤ) (h : reduceRows .py3 l H = .ok H')
    (hu : ∀ i j, i < j → H i j = 0) (hd : ∀ i, i ≠ 0 → 0 < H i i) :
    ∀ i ∈ l, -H' i i < H' i 0 ∧ H' i 0 ≤ 0 := by
  induction l generalizing H with
  | nil => simp
  | cons a l ih =>
    unfold reduceRows at h
    have ha := hl a (by simp)
    rw [List.pairwise_cons] at hp
    cases hr : reduceRow .py3 H a with
    | error e => simp [hr] at h
    | ok K =>
      simp only [hr] at h
      have hrange := reduceRow_range H K a ha (hd a ha) hr
      obtain ⟨t, rfl⟩ := reduceRow_form .py3 H K a ha hr
      have hu' : ∀ i j, i < j → addCol H 0 a t i j = 0 := by
        intro i j hij
        have : j ≠ 0 := Fin.ne_zero_of_lt hij
        simp [addCol, this, hu i j hij]
      have hl' : ∀ i ∈ l, i ≠ 0 := fun i hi => hl i (by simp [hi])
      intro i hi
      rcases List.mem_cons.mp hi with rfl | hi
      · rw [reduceRows_small .py3 l hl' _ H' h hu' i hp.1,
          (reduceRows_colEq .py3 l hl' _ H' h).2 i i ha]
        exact hrange
      · refine ih hl' hp.2 _ h hu' ?_ i hi
        intro k hk
        simpa [addCol, hk] using hd k hk

/-! ### `hnfd` -/

theorem hnfdH_colEq (py : Py) (n : ℕ) (M H : Matrix (Fin (n + 1)) (Fin (n + 1)) ℤ)
    (h : hnfdH py n M = .ok H) : ColEq M H := by
  induction n with
  | zero =>
    simp only [hnfdH, Except.ok.injEq] at h
    subst h
    split_ifs
    · exact ColEq.refl M
    · exact ⟨-1, by right; simp, by simp⟩
  | succ n ih =>
    unfold hnfdH at h
    simp only at h
    obtain ⟨e, -, z⟩ := gcdRow_spec (nonnegRow M 0) (nonnegRow_nonneg M 0)
    cases hs : hnfdH py n ((gcdRow (nonnegRow M 0)).submatrix Fin.succ Fin.succ) with
    | error er => simp [hs] at h
    | ok S =>
      simp only [hs] at h
      have hS := ih _ _ hs
      refine ((colEq_nonnegRow M 0).trans e).trans ((colEq_setSub _ z S hS).trans ?_)
      refine (reduceRows_colEq py _ ?_ _ _ h).1
      intro i hi
      simp only [List.mem_map] at hi
      obtain ⟨k, -, rfl⟩ := hi
      exact Fin.succ_ne_zero k

theorem det_firstRow {n : ℕ} (H : Matrix (Fin (n + 1)) (Fin (n + 1)) ℤ)
    (z : ∀ c, c ≠ 0 → H 0 c = 0) : H.det = H 0 0 * (H.submatrix Fin.succ Fin.succ).det := by
  rw [Matrix.det_succ_row_zero, Fin.sum_univ_succ]
  have : ∀ k : Fin n, H 0 k.succ = 0 := fun k => z _ (Fin.succ_ne_zero k)
  simp [this]

theorem hnfdH_spec (py : Py) (n : ℕ) (M : Matrix (Fin (n + 1)) (Fin (n + 1)) ℤ) (hM : M.det ≠ 0) :
    ∃ H, hnfdH py n M = .ok H ∧ (∀ i j, i < j → H i j = 0) ∧ (∀ i, 0 < H i i) ∧
      (py = .py3 → IsHNF H) := by
  induction n with
  | zero =>
    refine ⟨if 0 < M 0 0 then M else -M, rfl, ?_⟩
    have h0 : M 0 0 ≠ 0 := by simpa using hM
    have h1 : ∀ i j : Fin (0 + 1), i < j → (if 0 < M 0 0 then M else -M) i j = 0 := by
      intro i j hij; omega
    have h2 : ∀ i : Fin (0 + 1), 0 < (if 0 < M 0 0 then M else -M) i i := by
      intro i
      have : i = 0 := by omega
      subst this
      split_ifs with h
      · exact h
      · simp only [Matrix.neg_apply]; omega
    exact ⟨h1, h2, fun _ => ⟨h1, h2, fun i j hij => by omega⟩⟩
  | succ n ih =>
    obtain ⟨e, p, z⟩ := gcdRow_spec (nonnegRow M 0) (nonnegRow_nonneg M 0)
    have hdet : (gcdRow (nonnegRow M 0)).det ≠ 0 := ((colEq_nonnegRow M 0).trans e).det_ne hM
    set G := gcdRow (nonnegRow M 0) with hG
    rw [det_firstRow G z] at hdet
    have g0 : 0 < G 0 0 := lt_of_le_of_ne p (Ne.symm (left_ne_zero_of_mul hdet))
    obtain ⟨S, hS, su, sd, sh⟩ := ih (G.submatrix Fin.succ Fin.succ) (right_ne_zero_of_mul hdet)
    have hl : ∀ i ∈ (List.finRange (n + 1)).map Fin.succ, i ≠ 0 := by
      intro i hi
      simp only [List.mem_map] at hi
      obtain ⟨k, -, rfl⟩ := hi
      exact Fin.succ_ne_zero k
    have hu : ∀ i j, i < j → setSub G S i j = 0 := by
      intro i j
      refine Fin.cases ?_ (fun i => ?_) i
      · intro hij
        exact z j (Fin.ne_zero_of_lt hij)
      · refine Fin.cases ?_ (fun j => ?_) j
        · intro h; simp at h
        · intro h
          exact su i j (by simpa using h)
    have hd : ∀ i, 0 < setSub G S i i := by
      intro i
      refine Fin.cases ?_ (fun i => ?_) i
      · exact g0
      · exact sd i
    obtain ⟨H, hH⟩ := reduceRows_ok py _ hl (setSub G S) (fun i _ => ne_of_gt (hd i))
    have hrest := (reduceRows_colEq py _ hl _ _ hH).2
    have h00 : H 0 0 = G 0 0 := by
      rw [reduceRows_small py _ hl _ _ hH hu 0]
      · rfl
      · intro i hi
        exact Fin.pos_of_ne_zero (hl i hi)
    have u' : ∀ i j, i < j → H i j = 0 := by
      intro i j hij
      rw [hrest i j (Fin.ne_zero_of_lt hij)]
      exact hu i j hij
    have d' : ∀ i, 0 < H i i := by
      intro i
      by_cases hi : i = 0
      · subst hi; rw [h00]; exact g0
      · rw [hrest i i hi]; exact hd i
    refine ⟨H, ?_, u', d', ?_⟩
    · unfold hnfdH
      simp only [← hG, hS]
      exact hH
    · rintro rfl
      refine ⟨u', d', ?_⟩
      have hr := reduceRows_range _ hl (by
        rw [List.pairwise_map]
        exact (finRange_pairwise _).imp (fun h => by simpa using h)) _ _ hH hu (fun i _ => hd i)
      intro i j hij
      have hi0 : i ≠ 0 := Fin.ne_zero_of_lt hij
      obtain ⟨k, rfl⟩ := Fin.exists_succ_eq.mpr hi0
      revert hij
      refine Fin.cases ?_ (fun j => ?_) j
      · intro _
        exact hr k.succ (by simp)
      · intro h
        rw [hrest k.succ j.succ (Fin.succ_ne_zero j), hrest k.succ k.succ (Fin.succ_ne_zero k)]
        exact (sh rfl).lower k j (by simpa using h)

/-! ### uniqueness -/

theorem hnf_unique {n : ℕ} {H K : Matrix (Fin n) (Fin n) ℤ} (hH : IsHNF H) (hK : IsHNF K)
    (h : ColEq H K) : H = K := by
  obtain ⟨U, hU, rfl⟩ := h
  -- `U` is lower triangular
  have ul : ∀ (i : ℕ) (hi : i < n) (j : Fin n), i < j → U ⟨i, hi⟩ j = 0 := by
    intro i
    induction i using Nat.strong_induction_on with
    | _ i ih =>
      intro hi j hij
      have e := hK.upper ⟨i, hi⟩ j (by simpa [Fin.lt_def] using hij)
      rw [Matrix.mul_apply, Finset.sum_eq_single (⟨i, hi⟩ : Fin n)] at e
      · exact (mul_eq_zero.mp e).resolve_left (ne_of_gt (hH.diag _))
      · intro k _ hk
        rcases lt_or_gt_of_ne hk with h1 | h1
        · rw [ih k (by simpa [Fin.lt_def] using h1) k.2 j
            (lt_trans (by simpa [Fin.lt_def] using h1) hij), mul_zero]
        · rw [hH.upper _ _ h1, zero_mul]
      · simp
  have ul' : ∀ i j : Fin n, i < j → U i j = 0 := fun i j hij => ul i i.2 j hij
  have dg : ∀ i, (H * U) i i = H i i * U i i := by
    intro i
    rw [Matrix.mul_apply, Finset.sum_eq_single i]
    · intro k _ hk
      rcases lt_or_gt_of_ne hk with h1 | h1
      · rw [ul' k i h1, mul_zero]
      · rw [hH.upper _ _ h1, zero_mul]
    · simp
  have up : ∀ i, 0 < U i i := by
    intro i
    have := hK.diag i
    rw [dg] at this
    exact (pos_iff_pos_of_mul_pos this).mp (hH.diag i)
  have hdet : U.det = ∏ i, U i i := by
    apply Matrix.det_of_isLowerTriangular
    intro i j hij
    exact ul' i j hij
  have u1 : ∀ i, U i i = 1 := by
    intro i
    have : IsUnit (∏ i, U i i) := by rw [← hdet]; exact unimodular_isUnit hU
    have h2 : IsUnit (U i i) := isUnit_of_dvd_unit
      (Finset.dvd_prod_of_mem (fun i => U i i) (Finset.mem_univ i)) this
    rcases Int.isUnit_iff.mp h2 with h3 | h3
    · exact h3
    · have := up i; omega
  have lo : ∀ (i : ℕ) (hi : i < n) (j : Fin n), j < i → U ⟨i, hi⟩ j = 0 := by
    intro i
    induction i using Nat.strong_induction_on with
    | _ i ih =>
      intro hi j hij
      have hji : j ≠ ⟨i, hi⟩ := by
        intro h; rw [h] at hij; simp at hij
      have e : (H * U) ⟨i, hi⟩ j = H ⟨i, hi⟩ j + H ⟨i, hi⟩ ⟨i, hi⟩ * U ⟨i, hi⟩ j := by
        rw [Matrix.mul_apply, ← Finset.sum_subset (Finset.subset_univ {j, ⟨i, hi⟩}),
          Finset.sum_pair hji, u1, mul_one]
        intro k _ hk
        simp only [Finset.mem_insert, Finset.mem_singleton, not_or] at hk
        rcases lt_or_gt_of_ne hk.1 with h1 | h1
        · rw [ul' k j h1, mul_zero]
        · rcases lt_or_gt_of_ne hk.2 with h2 | h2
          · rw [ih k (by simpa [Fin.lt_def] using h2) k.2 j h1, mul_zero]
          · rw [hH.upper _ _ h2, zero_mul]
      have r1 := hH.lower ⟨i, hi⟩ j (by simpa [Fin.lt_def] using hij)
      have r2 := hK.lower ⟨i, hi⟩ j (by simpa [Fin.lt_def] using hij)
      rw [e, dg, u1, mul_one] at r2
      have hp := hH.diag ⟨i, hi⟩
      by_contra hne
      rcases lt_or_gt_of_ne hne with h1 | h1
      · have : H ⟨i, hi⟩ ⟨i, hi⟩ * U ⟨i, hi⟩ j ≤ H ⟨i, hi⟩ ⟨i, hi⟩ * (-1) :=
          mul_le_mul_of_nonneg_left (by omega) hp.le
        linarith
      · have : H ⟨i, hi⟩ ⟨i, hi⟩ * 1 ≤ H ⟨i, hi⟩ ⟨i, hi⟩ * U ⟨i, hi⟩ j :=
          mul_le_mul_of_nonneg_left (by omega) hp.le
        linarith
  have : U = 1 := by
    ext i j
    rcases lt_trichotomy i j with h | h | h
    · rw [ul' i j h, Matrix.one_apply_ne h.ne]
    · subst h; rw [u1, Matrix.one_apply_eq]
    · rw [lo i i.2 j h, Matrix.one_apply_ne h.ne']
  rw [this, Matrix.mul_one]

theorem rint_intCast (a : ℤ) : rint (a : ℚ) = a := by
  unfold rint
  simp

theorem inv_mul_rint {n : ℕ} {M H L : Matrix (Fin n) (Fin n) ℤ} (hH : H.det ≠ 0) (h : M = H * L) :
    ((H.map (Int.cast : ℤ → ℚ))⁻¹ * M.map (Int.cast : ℤ → ℚ)).map rint = L := by
  have hu : IsUnit (H.map (Int.cast : ℤ → ℚ)).det := by
    have : (H.map (Int.cast : ℤ → ℚ)).det = ((H.det : ℤ) : ℚ) := by
      have := (Int.castRingHom ℚ).map_det H
      simpa [RingHom.mapMatrix_apply] using this.symm
    rw [this]
    exact IsUnit.mk0 _ (by exact_mod_cast hH)
  have hm : M.map (Int.cast : ℤ → ℚ) = H.map (Int.cast : ℤ → ℚ) * L.map (Int.cast : ℤ → ℚ) := by
    rw [h]
    exact Matrix.map_mul (f := Int.castRingHom ℚ)
  rw [hm, ← Matrix.mul_assoc, Matrix.nonsing_inv_mul _ hu, Matrix.one_mul]
  ext i j
  simp [rint_intCast]

end Verif.Lemmas
