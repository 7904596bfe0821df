import Verif.Props.TwinSolve
import Verif.Props.Tetragonal
import Verif.Props.BestRankOne
import Verif.Spec.Refuse

/-!
# C119: what `TwinPair`, `solve_rank1`, `_solve_am`, `AM_Solver` and `_solvetwin` refuse
-/

namespace Verif.Props

open Matrix Verif.Model Verif.Spec Verif.Lemmas

local notation "Mat3" => Matrix (Fin 3) (Fin 3) ℝ

theorem fnorm_lt {A B : Mat3} {ε : ℝ} (h : 0 < ε) : fnorm (A - B) < ε ↔ distSq A B < ε ^ 2 := by
  rw [fnorm, Real.sqrt_lt' h]
  rfl

theorem posDefSym_iff {C : Mat3} : posDefSym C ↔ NearlyStretch (1 / 10 ^ 6) C := by
  rw [posDefSym, NearlyStretch, fnorm_lt (by norm_num)]

theorem spd_nearly {C : Mat3} (h : IsSPD C) {ε : ℝ} (hε : 0 < ε) : NearlyStretch ε C := by
  refine ⟨spd_det_pos h, ?_⟩
  rw [h.1, distSq]
  simp only [sub_self, ne_eq, OfNat.ofNat_ne_zero, not_false_eq_true, zero_pow, Finset.sum_const_zero]
  positivity

theorem entry_distSq (A B : Mat3) (i j : Fin 3) : (A i j - B i j) ^ 2 ≤ distSq A B :=
  (Finset.single_le_sum (f := fun l => (A i l - B i l) ^ 2) (fun _ _ => sq_nonneg _) (Finset.mem_univ j)).trans
    (Finset.single_le_sum (f := fun k => ∑ l, (A k l - B k l) ^ 2) (fun _ _ => Finset.sum_nonneg fun _ _ => sq_nonneg _)
      (Finset.mem_univ i))

/-- Two opposite entries that differ by `ε` are enough to be refused. -/
theorem not_nearly {C : Mat3} {ε : ℝ} (hε : 0 < ε) {i j : Fin 3} (h : ε ≤ |C i j - C j i|) : ¬ NearlyStretch ε C := by
  rintro ⟨-, h'⟩
  have h1 : ε ^ 2 ≤ (C i j - C j i) ^ 2 := by
    rw [← sq_abs (C i j - C j i)]
    gcongr
  have h2 := entry_distSq C Cᵀ i j
  rw [transpose_apply] at h2
  linarith

/-- **C119** (partial): `TwinPair(Ui, Uj)` raises `ValueError` iff one of the matrices has a determinant that is not positive or is not
symmetric up to `1e-6`, so never for stretches and always if two opposite entries differ by `1e-6`; otherwise it keeps both matrices.
With `skipcheck` only a singular `Ui` is refused.  Missing: indefinite matrices are not refused (`C119_indefinite_fails`). -/
theorem C119_pair_partial (eig : Mat3 → EigRes) (Ui Uj : Mat3) :
    (TwinPair.new eig Ui Uj false = .error .valueError ↔ ¬ (NearlyStretch (1 / 10 ^ 6) Ui ∧ NearlyStretch (1 / 10 ^ 6) Uj)) ∧
    (NearlyStretch (1 / 10 ^ 6) Ui → NearlyStretch (1 / 10 ^ 6) Uj →
      ∃ p, TwinPair.new eig Ui Uj false = .ok p ∧ p.Ui = Ui ∧ p.Uj = Uj) ∧
    (TwinPair.new eig Ui Uj true = .error .linAlgError ↔ Ui.det = 0) ∧
    (Ui.det ≠ 0 → ∃ p, TwinPair.new eig Ui Uj true = .ok p ∧ p.Ui = Ui ∧ p.Uj = Uj) ∧
    (IsSPD Ui → NearlyStretch (1 / 10 ^ 6) Ui) ∧
    (∀ i j, 1 / 10 ^ 6 ≤ |Ui i j - Ui j i| → ¬ NearlyStretch (1 / 10 ^ 6) Ui) := by
  refine ⟨?_, ?_, ?_, ?_, fun h => spd_nearly h (by norm_num), fun i j h => not_nearly (by norm_num) h⟩
  · unfold TwinPair.new
    rw [posDefSym_iff, posDefSym_iff]
    by_cases h : NearlyStretch (1 / 10 ^ 6) Ui ∧ NearlyStretch (1 / 10 ^ 6) Uj
    · rw [if_neg (by tauto), if_neg h.1.1.ne']
      exact ⟨fun e => (by cases e), fun h' => absurd h h'⟩
    · rw [if_pos ⟨rfl, by tauto⟩]
      exact ⟨fun _ => h, fun _ => rfl⟩
  · intro h1 h2
    unfold TwinPair.new
    rw [posDefSym_iff, posDefSym_iff, if_neg (by tauto), if_neg h1.1.ne']
    exact ⟨_, rfl, rfl, rfl⟩
  · unfold TwinPair.new
    rw [if_neg (by simp)]
    by_cases h : Ui.det = 0 <;> simp [h]
  · intro h
    unfold TwinPair.new
    rw [if_neg (by simp), if_neg h]
    exact ⟨_, rfl, rfl, rfl⟩

/-- **C119** (partial): `solve_rank1` and `_solve_am` raise `TypeError` iff the determinant is not positive or the matrix is not symmetric
up to `1e-6`; `AM_Solver` raises `CompatibilityError` iff the matrix is not symmetric up to `1e-9`. -/
theorem C119_solvers_partial (eig : Mat3 → EigRes) (C : Mat3) :
    (solveRank1 eig C = .error .typeError ↔ ¬ NearlyStretch (1 / 10 ^ 6) C) ∧
    (solveAm eig C = .error .typeError ↔ ¬ NearlyStretch (1 / 10 ^ 6) C) ∧
    (amSolver eig C = .error .compatibilityError ↔ (1 / 10 ^ 9) ^ 2 < distSq C Cᵀ) := by
  refine ⟨?_, ?_, ?_⟩
  · unfold solveRank1
    rw [posDefSym_iff]
    by_cases h : NearlyStretch (1 / 10 ^ 6) C
    · rw [if_neg (not_not.2 h)]
      simp only [h, not_true_eq_false, iff_false]
      split_ifs <;> simp
    · rw [if_pos h]
      exact ⟨fun _ => h, fun _ => rfl⟩
  · unfold solveAm
    rw [posDefSym_iff]
    by_cases h : NearlyStretch (1 / 10 ^ 6) C
    · rw [if_neg (not_not.2 h)]
      simp only [h, not_true_eq_false, iff_false]
      split_ifs <;> simp
    · rw [if_pos h]
      exact ⟨fun _ => h, fun _ => rfl⟩
  · have e : 1 / 10 ^ 9 < fnorm (Cᵀ - C) ↔ (1 / 10 ^ 9) ^ 2 < distSq C Cᵀ := by
      have : ∑ i, ∑ j, (Cᵀ - C) i j ^ 2 = distSq C Cᵀ := by
        simp only [distSq, Matrix.sub_apply]
        exact Finset.sum_congr rfl fun i _ => Finset.sum_congr rfl fun j _ => sub_sq_comm _ _
      rw [fnorm, this, Real.lt_sqrt (by norm_num)]
    unfold amSolver
    rw [← e]
    by_cases h : 1 / 10 ^ 9 < fnorm (Cᵀ - C)
    · rw [if_pos h]
      exact ⟨fun _ => h, fun _ => rfl⟩
    · rw [if_neg h]
      simp only [h, iff_false]
      split_ifs <;> simp

/-- **C119** fails for indefinite matrices: the checks only look at the determinant, so that `TwinPair` and `solve_rank1` accept a symmetric matrix
with two negative eigenvalues. -/
theorem C119_indefinite_fails (eig : Mat3 → EigRes) :
    ∃ C : Mat3, Cᵀ = C ∧ ¬ IsSPD C ∧ (∃ p, TwinPair.new eig C C false = .ok p) ∧ solveRank1 eig C ≠ .error .typeError ∧
      solveAm eig C ≠ .error .typeError := by
  have hs : (diagonal ![-1, -1, 1] : Mat3)ᵀ = diagonal ![-1, -1, 1] := diagonal_transpose _
  have hn : NearlyStretch (1 / 10 ^ 6) (diagonal ![-1, -1, 1] : Mat3) := by
    refine ⟨by simp [det_diagonal, Fin.prod_univ_three], ?_⟩
    rw [hs, distSq]
    norm_num
  obtain ⟨s1, s2, -⟩ := C119_solvers_partial eig (diagonal ![-1, -1, 1])
  obtain ⟨-, p1, -⟩ := C119_pair_partial eig (diagonal ![-1, -1, 1]) (diagonal ![-1, -1, 1])
  obtain ⟨p, hp, -⟩ := p1 hn hn
  refine ⟨_, hs, fun h => ?_, ⟨p, hp⟩, fun h => s1.1 h hn, fun h => s2.1 h hn⟩
  have := h.2 ![1, 0, 0] (fun e => by simpa using congrFun e 0)
  simp [dotProduct, mulVec, Fin.sum_univ_three] at this
  linarith

theorem nonneg_form {C : Mat3} (hC : Cᵀ = C) {e : EigRes} (he : EigOK e.vals e.vecs C) (hm : Monotone e.vals) (h0 : 0 ≤ e.vals 0)
    (h02 : e.vals 0 < e.vals 2) (v : V3) : e.vals 0 * (v ⬝ᵥ v) ≤ v ⬝ᵥ C *ᵥ v := by
  have h01 : e.vals 0 ≤ e.vals 1 := hm (by decide)
  have hf := eig_frame hC he h02
  rw [hf.form, hf.length]
  nlinarith [mul_nonneg (sub_nonneg.2 h01) (sq_nonneg ((e.vecs 2 ⨯₃ e.vecs 0) ⬝ᵥ v)), mul_nonneg (sub_nonneg.2 h02.le) (sq_nonneg (e.vecs 2 ⬝ᵥ v))]

theorem spd_of_eig {C : Mat3} (hC : Cᵀ = C) {e : EigRes} (he : EigOK e.vals e.vecs C) (hm : Monotone e.vals) (h0 : 0 ≤ e.vals 0)
    (h02 : e.vals 0 < e.vals 2) (hd : 0 < C.det) : IsSPD C := by
  refine ⟨hC, fun v hv => lt_of_lt_of_le (mul_pos (lt_of_le_of_ne h0 fun h => ?_) ?_) (nonneg_form hC he hm h0 h02 v)⟩
  · rw [det_three he.eigenvalues, ← h] at hd
    simp at hd
  · exact lt_of_le_of_ne (Finset.sum_nonneg fun i _ => mul_self_nonneg _) fun h => hv (dotProduct_self_eq_zero.1 h.symm)

theorem lt_of_not_small {x y : ℝ} {d : ℝ} (hd : 0 < d) (h : ¬ Real.sqrt (x - y) < d) : y < x := by
  have := Real.sqrt_pos.1 (hd.trans_le (not_lt.1 h))
  linarith

/-- **C119**, no meaningless answer: although indefinite matrices are not refused, a symmetric matrix for which `solve_rank1` or `_solve_am`
returns two solutions is positive definite, and one for which `AM_Solver` does is at least not indefinite. -/
theorem C119_no_pair (eig : Mat3 → EigRes) (heig : ∀ A, Aᵀ = A → EigOK (eig A).vals (eig A).vecs A) {C : Mat3} (hC : Cᵀ = C) :
    (∀ x y, solveRank1 eig C = .ok (.two x y) → IsSPD C) ∧ (∀ x y, solveAm eig C = .ok (.two x y) → IsSPD C) ∧
    (∀ x y, amSolver eig C = .ok (.two x y) → ∀ v, 0 ≤ v ⬝ᵥ C *ᵥ v) := by
  obtain ⟨he, hm⟩ := sortEig_spec (heig C hC)
  refine ⟨fun x y h => ?_, fun x y h => ?_, fun x y h v => ?_⟩
  · unfold solveRank1 at h
    dsimp only at h
    split_ifs at h with h1 h2 h3 <;> try (cases h; done)
    rw [not_or, not_lt] at h3
    exact spd_of_eig hC he hm h3.1 (lt_of_not_small (by norm_num [small]) h2) h1.1
  · unfold solveAm at h
    dsimp only at h
    split_ifs at h with h1 h2 h3 <;> try (cases h; done)
    rw [not_or, not_lt] at h3
    exact spd_of_eig hC he hm h3.1 (lt_of_not_small (by norm_num [small]) h2) h1.1
  · unfold amSolver at h
    dsimp only at h
    split_ifs at h with h1 h2 h3 h4 h5 <;> try (cases h; done)
    rw [not_or, not_lt, not_lt] at h5
    refine le_trans ?_ (nonneg_form hC he hm h5.2 (lt_of_not_small (by norm_num) h3) v)
    exact mul_nonneg h5.2 (Finset.sum_nonneg fun i _ => mul_self_nonneg _)

/-- **C119**, the axis: given an axis `e`, `_solvetwin` returns `None` iff the half turn about `e` carries `U` to none of its variants
(up to `1e-12`), and two solutions otherwise. -/
theorem C119_axis (eig : Mat3 → EigRes) (t : Tol) (rnd : ℝ → ℝ) {U : Mat3} (hU : U.det ≠ 0) (Uj : Mat3) {vs : List Mat3}
    (hvs : Mart.getVariants t ⟨some U, cubicR⟩ = .ok vs) {e : V3} (he : e ⬝ᵥ e = 1) :
    (solveTwin eig t rnd false U Uj (some (some e)) = .ok none ↔
      ∀ V ∈ vs, (1 / 10 ^ 12) ^ 2 ≤ distSq (halfTurn e * U * (halfTurn e)ᵀ) V) ∧
    (∀ V ∈ vs, distSq (halfTurn e * U * (halfTurn e)ᵀ) V < (1 / 10 ^ 12) ^ 2 →
      ∃ x y, solveTwin eig t rnd false U Uj (some (some e)) = .ok (some (x, y))) := by
  classical
  have hunit : unitVec e = some e := unitVec_of_isDirection ⟨he, 1, one_pos, (one_smul _ _).symm⟩
  have hdet : (halfTurn e * U * (halfTurn e)ᵀ).det ≠ 0 := by
    have h2 : halfTurn e * halfTurn e = 1 := by
      rw [halfTurn, sub_mul, mul_sub, mul_sub, smul_mul_smul_comm, vecMulVec_mul_vecMulVec, he]
      simp only [mul_one, one_mul, one_smul]
      module
    have := congrArg det h2
    rw [det_mul, det_one] at this
    have h3 : (halfTurn e).det ≠ 0 := fun h => by rw [h] at this; norm_num at this
    rw [det_mul, det_mul, det_transpose]
    exact mul_ne_zero (mul_ne_zero h3 hU) h3
  have hv : ∀ V : Mat3, isVariant t U (some V) = .ok (vs.any fun u => decide (distSq V u < (1 / 10 ^ 12) ^ 2)) := by
    intro V
    unfold isVariant
    rw [hvs]
    simp only [small, fnorm_lt (show (0 : ℝ) < 1 / 10 ^ 12 by norm_num)]
  unfold solveTwin
  simp only [Option.bind_some, hunit, Option.map_some, r180_eq, hv, Bool.false_eq_true, if_false, if_neg hU, if_neg hdet]
  cases hb : vs.any fun u => decide (distSq (halfTurn e * U * (halfTurn e)ᵀ) u < (1 / 10 ^ 12) ^ 2) with
  | false =>
    rw [List.any_eq_false] at hb
    simp only [decide_eq_true_eq, not_lt] at hb
    exact ⟨⟨fun _ => hb, fun _ => rfl⟩, fun V hV h => absurd h (not_lt.2 (hb V hV))⟩
  | true =>
    rw [List.any_eq_true] at hb
    simp only [decide_eq_true_eq] at hb
    obtain ⟨V, hV, h⟩ := hb
    refine ⟨⟨fun h' => ?_, fun h' => absurd h (not_lt.2 (h' V hV))⟩, fun _ _ _ => ⟨_, _, rfl⟩⟩
    simp at h'

/-! ## The hypotheses are met -/

/-- A shear is refused by all three solvers and by `TwinPair`. -/
example (eig : Mat3 → EigRes) : solveRank1 eig !![1, 1 / 10, 0; 0, 1, 0; 0, 0, 1] = .error .typeError ∧
    solveAm eig !![1, 1 / 10, 0; 0, 1, 0; 0, 0, 1] = .error .typeError ∧
    amSolver eig !![1, 1 / 10, 0; 0, 1, 0; 0, 0, 1] = .error .compatibilityError ∧
    TwinPair.new eig 1 !![1, 1 / 10, 0; 0, 1, 0; 0, 0, 1] false = .error .valueError := by
  have h : ¬ NearlyStretch (1 / 10 ^ 6) (!![1, 1 / 10, 0; 0, 1, 0; 0, 0, 1] : Mat3) :=
    not_nearly (by norm_num) (i := 0) (j := 1) (by norm_num)
  obtain ⟨s1, s2, s3⟩ := C119_solvers_partial eig !![1, 1 / 10, 0; 0, 1, 0; 0, 0, 1]
  refine ⟨s1.2 h, s2.2 h, s3.2 ?_, (C119_pair_partial eig 1 _).1.2 fun h' => h h'.2⟩
  refine lt_of_lt_of_le ?_ (entry_distSq _ _ 0 1)
  norm_num [transpose_apply]

/-- No pair for the matrix of `C119_indefinite_fails`; the pairs for a stretch are in C57. -/
example (eig : Mat3 → EigRes) (heig : ∀ A, Aᵀ = A → EigOK (eig A).vals (eig A).vecs A) (x y) :
    solveRank1 eig (diagonal ![-1, -1, 1]) ≠ .ok (.two x y) := fun h => by
  have := ((C119_no_pair eig heig (diagonal_transpose _)).1 x y h).2 ![1, 0, 0] (fun e => by simpa using congrFun e 0)
  simp [dotProduct, mulVec, Fin.sum_univ_three] at this
  linarith

/-- The half turn about (3, 4, 0)/5 carries no tetragonal stretch to a variant, and is refused. -/
example (eig : Mat3 → EigRes) (rnd : ℝ → ℝ) (Uj : Mat3) :
    solveTwin eig .code rnd false (tetraStretch 0.9889 1.0221 0) Uj (some (some ![3 / 5, 4 / 5, 0])) = .ok none := by
  have hc : ClearlyTetragonal (0.9889 : ℝ) 1.0221 := ⟨by norm_num, by norm_num, .inr ⟨by norm_num, by norm_num⟩⟩
  obtain ⟨vs, hvs, -, -, -, hmem⟩ := C101_variants (.inl rfl) hc 0
  refine (C119_axis eig .code rnd (spd_det_pos (tetraStretch_spd (by norm_num) (by norm_num) 0)).ne' Uj hvs
    (by norm_num [dotProduct, Fin.sum_univ_succ])).1.2 fun V hV => ?_
  obtain ⟨k, rfl⟩ := (hmem V).1 hV
  refine le_trans ?_ (entry_distSq _ _ 0 1)
  fin_cases k <;>
    norm_num [Fin.sum_univ_succ, halfTurn, tetraStretch, Matrix.mul_apply, vecMulVec_apply, transpose_apply, diagonal_apply, Matrix.one_apply] <;>
    rw [if_neg (by decide)] <;> norm_num

end Verif.Props
