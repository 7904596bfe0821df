import Mathlib.Analysis.SpecialFunctions.Trigonometric.Bounds
import Mathlib.Analysis.Real.Pi.Bounds
import Verif.Model.SetLaue
import Verif.Spec.Systems
import Verif.Props.Complete

/-!
# C76: setLaue selects the rotation group of the crystal system
-/

namespace Verif.Props

open Matrix Verif.Spec Verif.Model Verif.Lemmas

/-- `x` is at least a thousandth away from every integer, and not large. -/
def FarInt (x : ℝ) : Prop := ∃ k : ℤ, |(k : ℝ)| ≤ 5 ∧ k + 1 / 1000 ≤ x ∧ x ≤ k + 999 / 1000

theorem FarInt.far {x : ℝ} (h : FarInt x) (z : ℤ) :
    1 / 10 ^ 8 + 1 / 10 ^ 5 * |(z : ℝ)| < |x - z| := by
  obtain ⟨k, hk, h1, h2⟩ := h
  have hz : (1 : ℝ) / 1000 ≤ |x - z| := by
    rcases le_or_gt z k with h | h
    · have : (z : ℝ) ≤ k := by exact_mod_cast h
      rw [abs_of_nonneg (by linarith)]; linarith
    · have : (k : ℝ) + 1 ≤ z := by exact_mod_cast h
      rw [abs_sub_comm, abs_of_nonneg (by linarith)]; linarith
  have hx : |x| ≤ 6 := by
    have := abs_le.mp hk
    rw [abs_le]; constructor <;> linarith
  have : |(z : ℝ)| ≤ |x| + |x - z| := by
    have := abs_sub_abs_le_abs_sub (z : ℝ) x
    rw [abs_sub_comm] at this
    linarith
  linarith

theorem passes_far {t : Tol} (ht : t = .code ∨ t = .exact) {E : Matrix (Fin 3) (Fin 3) ℝ} {Q : NMat 3}
    {i j : Fin 3} (h : FarInt ((E⁻¹ * (Q.val * E)) i j)) : passes t E Q = false := by
  have := eqTest_of_far (E1 := E) (E2 := Q.val * E) ht h.far
  cases Q with
  | int M =>
    have h' : eqTest t E (toR M * E) = false := this
    simp [passes, h']
  | float M =>
    have h' : eqTest t E (M * E) = false := this
    simp [passes, h']

theorem tolOK_of {t : Tol} (ht : t = .code ∨ t = .exact) : TolOK t := by
  rcases ht with rfl | rfl
  · exact tolOK_code
  · exact tolOK_exact

/-- The Laue group of a lattice for which it is known which members of the tables are symmetries. -/
theorem laue_eq {t : Tol} (ht : t = .code ∨ t = .exact) {E : Matrix (Fin 3) (Fin 3) ℝ}
    (hE : E.det ≠ 0) (keep : Matrix (Fin 3) (Fin 3) ℤ → Bool)
    (hk : ∀ Q ∈ cubicLaue, keep Q = true → IsIntegral (E⁻¹ * (toR Q * E)))
    (hf : ∀ Q ∈ cubicLaue, keep Q = false → ∃ i j, FarInt ((E⁻¹ * (toR Q * E)) i j))
    (h4 : (cubicLaue.filter keep).length = 4 →
      ∀ Q ∈ hexLaue.drop 4, ∃ i j, FarInt ((E⁻¹ * (Q.val * E)) i j)) :
    Lat.laueGroup t ⟨3, E⟩ = .ok ((cubicLaue.filter keep).map toR) := by
  have hc : (cubicLaue.map NMat.int).filter (passes t E) = (cubicLaue.filter keep).map NMat.int := by
    rw [List.filter_map]
    congr 1
    refine List.filter_congr fun Q hQ => ?_
    show passes t E (.int Q) = keep Q
    cases hq : keep Q with
    | true =>
      have ho : toR Q * (toR Q)ᵀ = 1 := by
        have h1 := ((C19_cubic_complete Q).mp hQ).1
        have h2 := congrArg (toR (m := 3) (n := 3)) h1
        rw [toR_mul, toR_one] at h2
        rw [← h2]
        rfl
      exact passes_of_sym (tolOK_of ht) hE (.int Q) ((inPointGroup_iff hE).mpr ⟨ho, hk Q hQ hq⟩)
    | false =>
      obtain ⟨i, j, h⟩ := hf Q hQ hq
      exact passes_far ht (Q := .int Q) h
  rw [laueGroup_three]
  simp only [Lat.select, filter_ok t hE, hc]
  have hv : ((cubicLaue.filter keep).map NMat.int).map NMat.val = (cubicLaue.filter keep).map toR := by
    rw [List.map_map]; rfl
  rw [hv]
  split_ifs with h1 h2
  · exfalso
    rw [List.length_map] at h1
    have h5 : hexLaue.filter (passes t E) = (hexLaue.take 4).filter (passes t E) := by
      have hn : (hexLaue.drop 4).filter (passes t E) = [] := by
        refine List.filter_eq_nil_iff.mpr fun Q hQ => ?_
        obtain ⟨i, j, h⟩ := h4 h1 Q hQ
        rw [passes_far ht h]
        decide
      conv_lhs => rw [← List.take_append_drop 4 hexLaue, List.filter_append, hn, List.append_nil]
    rw [h5, List.length_map, List.length_map, h1] at h2
    have := List.length_filter_le (passes t E) (hexLaue.take 4)
    have e : (hexLaue.take 4).length = 4 := by simp [hexLaue]
    omega
  · rfl
  · rfl

/-! ## Lattices with rational coordinates -/

/-- The entries of `R Q P / e`. -/
theorem conj_rat {P R : Matrix (Fin 3) (Fin 3) ℤ} {e : ℤ} {d : ℝ} (he : e ≠ 0) (hd : d ≠ 0)
    (hRP : R * P = e • (1 : Matrix (Fin 3) (Fin 3) ℤ)) (V : Matrix (Fin 3) (Fin 3) ℝ) :
    (d • toR P)⁻¹ * (V * (d • toR P)) = (1 / (e : ℝ)) • (toR R * (V * toR P)) ∧
      (d • toR P).det ≠ 0 := by
  have he' : (e : ℝ) ≠ 0 := by exact_mod_cast he
  have hl : ((1 / ((e : ℝ) * d)) • toR R) * (d • toR P) = 1 := by
    have : toR R * toR P = (e : ℝ) • (1 : Matrix (Fin 3) (Fin 3) ℝ) := by
      rw [← toR_mul, hRP]
      ext i j
      simp only [toR, Matrix.map_apply, Matrix.smul_apply, Matrix.one_apply]
      split_ifs <;> simp
    rw [Matrix.smul_mul, Matrix.mul_smul, this, smul_smul, smul_smul]
    rw [show 1 / ((e : ℝ) * d) * d * e = 1 by field_simp, one_smul]
  have hdet : (d • toR P).det ≠ 0 := by
    intro h0
    have := congrArg Matrix.det hl
    rw [Matrix.det_mul, h0, mul_zero, Matrix.det_one] at this
    exact zero_ne_one this
  refine ⟨?_, hdet⟩
  rw [Matrix.inv_eq_left_inv hl, Matrix.smul_mul, Matrix.mul_smul, Matrix.mul_smul, smul_smul]
  congr 1
  field_simp

/-- `m / e` is far from the integers. -/
def farQuot (m e : ℤ) : Bool :=
  decide (-5 * e ≤ m) && decide (m ≤ 5 * e) && decide (e ≤ 1000 * (m % e)) &&
    decide (1000 * (m % e) ≤ 999 * e)

theorem farQuot_far {m e : ℤ} (he : 0 < e) (h : farQuot m e = true) : FarInt (1 / (e : ℝ) * m) := by
  simp only [farQuot, Bool.and_eq_true, decide_eq_true_eq] at h
  obtain ⟨⟨⟨h1, h2⟩, h3⟩, h4⟩ := h
  have he' : (0 : ℝ) < e := by exact_mod_cast he
  have hdm : e * (m / e) + m % e = m := Int.mul_ediv_add_emod m e
  have hdm' : (e : ℝ) * ((m / e : ℤ) : ℝ) + ((m % e : ℤ) : ℝ) = m := by exact_mod_cast hdm
  have h3' : (e : ℝ) ≤ 1000 * ((m % e : ℤ) : ℝ) := by exact_mod_cast h3
  have h4' : 1000 * ((m % e : ℤ) : ℝ) ≤ 999 * (e : ℝ) := by exact_mod_cast h4
  refine ⟨m / e, ?_, ?_, ?_⟩
  · rw [← Int.cast_abs]
    have a1 : -5 ≤ m / e := by
      rw [Int.le_ediv_iff_mul_le he]; linarith
    have a2 : m / e ≤ 5 := by
      have : m / e < 5 + 1 := by
        rw [Int.ediv_lt_iff_lt_mul he]; linarith
      omega
    have : |m / e| ≤ 5 := abs_le.mpr ⟨a1, a2⟩
    exact_mod_cast this
  · rw [show 1 / (e : ℝ) * m = m / e by ring, le_div_iff₀ he']
    linarith
  · rw [show 1 / (e : ℝ) * m = m / e by ring, div_le_iff₀ he']
    linarith

/-- The Laue group of a lattice with rational coordinates. -/
theorem laue_rat {t : Tol} (ht : t = .code ∨ t = .exact) {P R : Matrix (Fin 3) (Fin 3) ℤ} {e : ℤ}
    {d : ℝ} (he : 0 < e) (hd : d ≠ 0) (hRP : R * P = e • (1 : Matrix (Fin 3) (Fin 3) ℤ))
    (keep : Matrix (Fin 3) (Fin 3) ℤ → Bool)
    (hk : ∀ Q ∈ cubicLaue, if keep Q then ∀ i j, (R * (Q * P)) i j % e = 0
      else ∃ i j, farQuot ((R * (Q * P)) i j) e = true)
    (h4 : (cubicLaue.filter keep).length = 4 →
      ∀ Q ∈ hexLaue.drop 4, ∃ i j, FarInt (1 / (e : ℝ) * (toR R * (Q.val * toR P)) i j)) :
    Lat.laueGroup t ⟨3, d • toR P⟩ = .ok ((cubicLaue.filter keep).map toR) ∧ (d • toR P).det ≠ 0 := by
  have hdet := (conj_rat he.ne' hd hRP 1).2
  have hent : ∀ Q : Matrix (Fin 3) (Fin 3) ℤ, ∀ i j,
      ((d • toR P)⁻¹ * (toR Q * (d • toR P))) i j = 1 / (e : ℝ) * ((R * (Q * P)) i j : ℤ) := by
    intro Q i j
    rw [(conj_rat he.ne' hd hRP (toR Q)).1, ← toR_mul, ← toR_mul]
    rfl
  refine ⟨laue_eq ht hdet keep ?_ ?_ ?_, hdet⟩
  · intro Q hQ hq i j
    have h := hk Q hQ
    rw [if_pos hq] at h
    rw [hent Q i j]
    refine ⟨(R * (Q * P)) i j / e, ?_⟩
    have h1 : e * ((R * (Q * P)) i j / e) = (R * (Q * P)) i j := by
      have := Int.mul_ediv_add_emod ((R * (Q * P)) i j) e
      rw [h i j, add_zero] at this
      exact this
    have he' : (e : ℝ) ≠ 0 := by exact_mod_cast he.ne'
    have h2 : (e : ℝ) * (((R * (Q * P)) i j / e : ℤ) : ℝ) = ((R * (Q * P)) i j : ℤ) := by
      exact_mod_cast h1
    rw [← h2]
    field_simp
  · intro Q hQ hq
    have h := hk Q hQ
    rw [if_neg (by rw [hq]; decide)] at h
    obtain ⟨i, j, h⟩ := h
    exact ⟨i, j, by rw [hent Q i j]; exact farQuot_far he h⟩
  · intro hl Q hQ
    obtain ⟨i, j, h⟩ := h4 hl Q hQ
    refine ⟨i, j, ?_⟩
    rw [(conj_rat he.ne' hd hRP Q.val).1]
    exact h

/-! ## The lattices of the table -/

theorem getD_get (x : Nums) (i : ℕ) : x.get i = x.vals.getD i 0 := rfl

/-- `setLaue` in terms of the base of the lattice that it constructs. -/
theorem setLaue_of {t : Tol} {py : Py} {m : Mart} {id : ℤ} {x : Nums} {E : M3} {g : List M3}
    (h1 : 1 ≤ id) (h2 : id ≤ 14)
    (harg : laueParams.getD (id - 1).toNat .other = .num x ∨
      laueParams.getD (id - 1).toNat .other = .list x)
    (hpos : ∀ v ∈ x.vals, 0 < v)
    (hlen : x.vals.length = paramLen3.getD (id - 1).toNat 0)
    (hE : primBase3 py x.isInt id x.get = some E) (hd : E.det ≠ 0)
    (hg : Lat.laueGroup t ⟨3, E⟩ = .ok g) : m.setLaue t py (.int id) = .ok ⟨m.U, g⟩ := by
  have hc : checkParam (laueParams.getD (id - 1).toNat .other) = .ok x := by
    rcases harg with h | h <;> rw [h] <;> simp only [checkParam] <;> rw [if_neg] <;> push Not <;>
      exact hpos
  have hn : BLat.new py id (laueParams.getD (id - 1).toNat .other) 3 =
      .ok ⟨3, some E, id, x, (centring3 id)⁻¹⟩ := by
    simp only [BLat.new, hc, hE, initBase_some, if_neg hd]
    rw [if_pos trivial, if_neg (by push Not; omega), if_neg (by simp [hlen])]
  simp only [Mart.setLaue]
  rw [if_pos (by omega), hn]
  simp only [BLat.laue3, Lat.getLauegroup, hg, dif_pos]
  congr 2
  rw [show (castSq rfl rfl : M3 → M3) = _root_.id by funext A; exact castSq_rfl A, List.map_id]

/-- The members of the cubic table kept for each system. -/
def keepOf : CSystem → Matrix (Fin 3) (Fin 3) ℤ → Bool
  | .tetragonal, Q => decide (Q 2 2 ≠ 0)
  | .orthorhombic, Q => decide (Q 0 1 = 0 ∧ Q 0 2 = 0 ∧ Q 1 0 = 0 ∧ Q 1 2 = 0 ∧ Q 2 0 = 0 ∧ Q 2 1 = 0)
  | .monoclinic, Q => decide (Q = !![1, 0, 0; 0, 1, 0; 0, 0, 1] ∨ Q = !![-1, 0, 0; 0, 1, 0; 0, 0, -1])
  | .triclinic, Q => decide (Q = !![1, 0, 0; 0, 1, 0; 0, 0, 1])
  | _, _ => true

section rational

variable {t : Tol} (ht : t = .code ∨ t = .exact) (py : Py) (m : Mart)
include ht

theorem set_1 : m.setLaue t py (.int 1) = .ok ⟨m.U, (cubicLaue.filter (keepOf .cubic)).map toR⟩ := by
  obtain ⟨hg, hd⟩ := laue_rat ht (P := !![1, 0, 0; 0, 1, 0; 0, 0, 1])
    (R := !![1, 0, 0; 0, 1, 0; 0, 0, 1]) (e := 1) (d := 2) (by norm_num) (by norm_num)
    (by decide +kernel) (keepOf .cubic) (by unfold cubicLaue; decide +kernel)
    (fun h => absurd h (by unfold cubicLaue; decide +kernel))
  refine setLaue_of (x := .int [2]) (by norm_num) (by norm_num) (.inl rfl) (by simp [Nums.vals]) rfl ?_
    hd hg
  simp only [primBase3, getD_get, Nums.vals]
  norm_num
  ext i j
  fin_cases i <;> fin_cases j <;> simp [toR]

theorem set_2 : m.setLaue t py (.int 2) = .ok ⟨m.U, (cubicLaue.filter (keepOf .cubic)).map toR⟩ := by
  obtain ⟨hg, hd⟩ := laue_rat ht (P := !![1, 0, 1; 1, 1, 0; 0, 1, 1])
    (R := !![1, 1, -1; -1, 1, 1; 1, -1, 1]) (e := 2) (d := 1) (by norm_num) (by norm_num)
    (by decide +kernel) (keepOf .cubic) (by unfold cubicLaue; decide +kernel)
    (fun h => absurd h (by unfold cubicLaue; decide +kernel))
  refine setLaue_of (x := .int [2]) (by norm_num) (by norm_num) (.inl rfl) (by simp [Nums.vals]) rfl ?_
    hd hg
  simp only [primBase3, getD_get, Nums.vals]
  norm_num
  ext i j
  fin_cases i <;> fin_cases j <;> simp [toR]

theorem set_3 : m.setLaue t py (.int 3) = .ok ⟨m.U, (cubicLaue.filter (keepOf .cubic)).map toR⟩ := by
  obtain ⟨hg, hd⟩ := laue_rat ht (P := !![1, -1, -1; 1, 1, -1; 1, 1, 1])
    (R := !![1, 0, 1; -1, 1, 0; 0, -1, 1]) (e := 2) (d := 1) (by norm_num) (by norm_num)
    (by decide +kernel) (keepOf .cubic) (by unfold cubicLaue; decide +kernel)
    (fun h => absurd h (by unfold cubicLaue; decide +kernel))
  refine setLaue_of (x := .int [2]) (by norm_num) (by norm_num) (.inl rfl) (by simp [Nums.vals]) rfl ?_
    hd hg
  simp only [primBase3, getD_get, Nums.vals]
  norm_num
  ext i j
  fin_cases i <;> fin_cases j <;> simp [toR]

theorem set_6 :
    m.setLaue t py (.int 6) = .ok ⟨m.U, (cubicLaue.filter (keepOf .tetragonal)).map toR⟩ := by
  obtain ⟨hg, hd⟩ := laue_rat ht (P := !![141, 0, 0; 0, 141, 0; 0, 0, 200])
    (R := !![200, 0, 0; 0, 200, 0; 0, 0, 141]) (e := 28200) (d := 1 / 100) (by norm_num) (by norm_num)
    (by decide +kernel) (keepOf .tetragonal) (by unfold cubicLaue; decide +kernel)
    (fun h => absurd h (by unfold cubicLaue; decide +kernel))
  refine setLaue_of (x := .float [141 / 100, 2]) (by norm_num) (by norm_num) (.inr rfl)
    (by simp [Nums.vals]) rfl ?_ hd hg
  simp only [primBase3, getD_get, Nums.vals]
  norm_num
  ext i j
  fin_cases i <;> fin_cases j <;> simp [toR] <;> norm_num

theorem set_7 :
    m.setLaue t py (.int 7) = .ok ⟨m.U, (cubicLaue.filter (keepOf .tetragonal)).map toR⟩ := by
  obtain ⟨hg, hd⟩ := laue_rat ht (P := !![141, -141, -141; 141, 141, -141; 200, 200, 200])
    (R := !![200, 0, 141; -200, 200, 0; 0, -200, 141]) (e := 56400) (d := 1 / 200) (by norm_num)
    (by norm_num) (by decide +kernel) (keepOf .tetragonal) (by unfold cubicLaue; decide +kernel)
    (fun h => absurd h (by unfold cubicLaue; decide +kernel))
  refine setLaue_of (x := .float [141 / 100, 2]) (by norm_num) (by norm_num) (.inr rfl)
    (by simp [Nums.vals]) rfl ?_ hd hg
  simp only [primBase3, getD_get, Nums.vals, npdiv, Nums.isInt]
  norm_num
  ext i j
  fin_cases i <;> fin_cases j <;> simp [toR] <;> norm_num

/-- No sixfold or threefold rotation about the third axis, and no half turn between the axes, preserves
the orthorhombic lattices. -/
theorem hex_far {P R : Matrix (Fin 3) (Fin 3) ℤ} {e : ℤ}
    (h : ∀ c s : ℝ, (c = 1 / 2 ∨ c = -(1 / 2)) → (s = hexS ∨ s = -hexS) →
      FarInt (1 / (e : ℝ) * (toR R * (!![c, -s, 0; s, c, 0; 0, 0, 1] * toR P)) 0 0) ∧
      FarInt (1 / (e : ℝ) * (toR R * (!![c, s, 0; s, -c, 0; 0, 0, -1] * toR P)) 0 0)) :
    ∀ Q ∈ hexLaue.drop 4, ∃ i j, FarInt (1 / (e : ℝ) * (toR R * (Q.val * toR P)) i j) := by
  intro Q hQ
  refine ⟨0, 0, ?_⟩
  simp only [hexLaue, List.drop, List.mem_cons, List.not_mem_nil, or_false] at hQ
  have h1 := h (1 / 2) hexS (.inl rfl) (.inl rfl)
  have h2 := h (1 / 2) (-hexS) (.inl rfl) (.inr rfl)
  have h3 := h (-(1 / 2)) hexS (.inr rfl) (.inl rfl)
  have h4 := h (-(1 / 2)) (-hexS) (.inr rfl) (.inr rfl)
  simp only [neg_neg] at h1 h2 h3 h4
  rcases hQ with rfl | rfl | rfl | rfl | rfl | rfl | rfl | rfl <;>
    simp only [NMat.val, hexC_eq] <;> tauto

theorem set_8 :
    m.setLaue t py (.int 8) = .ok ⟨m.U, (cubicLaue.filter (keepOf .orthorhombic)).map toR⟩ := by
  obtain ⟨hs1, hs2⟩ := hexS_bounds
  obtain ⟨hg, hd⟩ := laue_rat ht (P := !![141, 0, 0; 0, 142, 0; 0, 0, 200])
    (R := !![14200, 0, 0; 0, 14100, 0; 0, 0, 10011]) (e := 2002200) (d := 1 / 100) (by norm_num)
    (by norm_num) (by decide +kernel) (keepOf .orthorhombic) (by unfold cubicLaue; decide +kernel)
    (fun _ => hex_far ht fun c s hc hs => by
      simp only [toR, Matrix.mul_apply, Fin.sum_univ_three, Matrix.map_apply]
      rcases hc with rfl | rfl <;> rcases hs with rfl | rfl <;> refine ⟨?_, ?_⟩ <;> simp <;>
      first
        | (refine ⟨0, ?_, ?_, ?_⟩ <;> norm_num <;> linarith)
        | (refine ⟨-1, ?_, ?_, ?_⟩ <;> norm_num <;> linarith)
        | (refine ⟨1, ?_, ?_, ?_⟩ <;> norm_num <;> linarith)
        | (refine ⟨-2, ?_, ?_, ?_⟩ <;> norm_num <;> linarith))
  refine setLaue_of (x := .float [141 / 100, 142 / 100, 2]) (by norm_num) (by norm_num) (.inr rfl)
    (by simp [Nums.vals]) rfl ?_ hd hg
  simp only [primBase3, getD_get, Nums.vals]
  norm_num
  ext i j
  fin_cases i <;> fin_cases j <;> simp [toR] <;> norm_num

theorem set_9 :
    m.setLaue t py (.int 9) = .ok ⟨m.U, (cubicLaue.filter (keepOf .orthorhombic)).map toR⟩ := by
  obtain ⟨hs1, hs2⟩ := hexS_bounds
  obtain ⟨hg, hd⟩ := laue_rat ht (P := !![141, -141, 0; 142, 142, 0; 0, 0, 400])
    (R := !![14200, 14100, 0; -14200, 14100, 0; 0, 0, 10011]) (e := 4004400) (d := 1 / 200) (by norm_num)
    (by norm_num) (by decide +kernel) (keepOf .orthorhombic) (by unfold cubicLaue; decide +kernel)
    (fun _ => hex_far ht fun c s hc hs => by
      simp only [toR, Matrix.mul_apply, Fin.sum_univ_three, Matrix.map_apply]
      rcases hc with rfl | rfl <;> rcases hs with rfl | rfl <;> refine ⟨?_, ?_⟩ <;> simp <;>
      first
        | (refine ⟨0, ?_, ?_, ?_⟩ <;> norm_num <;> linarith)
        | (refine ⟨-1, ?_, ?_, ?_⟩ <;> norm_num <;> linarith)
        | (refine ⟨1, ?_, ?_, ?_⟩ <;> norm_num <;> linarith)
        | (refine ⟨-2, ?_, ?_, ?_⟩ <;> norm_num <;> linarith))
  refine setLaue_of (x := .float [141 / 100, 142 / 100, 2]) (by norm_num) (by norm_num) (.inr rfl)
    (by simp [Nums.vals]) rfl ?_ hd hg
  simp only [primBase3, getD_get, Nums.vals, npdiv, Nums.isInt]
  norm_num
  ext i j
  fin_cases i <;> fin_cases j <;> simp [toR] <;> norm_num

theorem set_10 :
    m.setLaue t py (.int 10) = .ok ⟨m.U, (cubicLaue.filter (keepOf .orthorhombic)).map toR⟩ := by
  obtain ⟨hs1, hs2⟩ := hexS_bounds
  obtain ⟨hg, hd⟩ := laue_rat ht (P := !![141, 0, 141; 142, 142, 0; 0, 200, 200])
    (R := !![14200, 14100, -10011; -14200, 14100, 10011; 14200, -14100, 10011]) (e := 4004400) (d := 1 / 200) (by norm_num)
    (by norm_num) (by decide +kernel) (keepOf .orthorhombic) (by unfold cubicLaue; decide +kernel)
    (fun _ => hex_far ht fun c s hc hs => by
      simp only [toR, Matrix.mul_apply, Fin.sum_univ_three, Matrix.map_apply]
      rcases hc with rfl | rfl <;> rcases hs with rfl | rfl <;> refine ⟨?_, ?_⟩ <;> simp <;>
      first
        | (refine ⟨0, ?_, ?_, ?_⟩ <;> norm_num <;> linarith)
        | (refine ⟨-1, ?_, ?_, ?_⟩ <;> norm_num <;> linarith)
        | (refine ⟨1, ?_, ?_, ?_⟩ <;> norm_num <;> linarith)
        | (refine ⟨-2, ?_, ?_, ?_⟩ <;> norm_num <;> linarith))
  refine setLaue_of (x := .float [141 / 100, 142 / 100, 2]) (by norm_num) (by norm_num) (.inr rfl)
    (by simp [Nums.vals]) rfl ?_ hd hg
  simp only [primBase3, getD_get, Nums.vals, npdiv, Nums.isInt]
  norm_num
  ext i j
  fin_cases i <;> fin_cases j <;> simp [toR] <;> norm_num

theorem set_11 :
    m.setLaue t py (.int 11) = .ok ⟨m.U, (cubicLaue.filter (keepOf .orthorhombic)).map toR⟩ := by
  obtain ⟨hs1, hs2⟩ := hexS_bounds
  obtain ⟨hg, hd⟩ := laue_rat ht (P := !![141, -141, -141; 142, 142, -142; 200, 200, 200])
    (R := !![14200, 0, 10011; -14200, 14100, 0; 0, -14100, 10011]) (e := 4004400) (d := 1 / 200) (by norm_num)
    (by norm_num) (by decide +kernel) (keepOf .orthorhombic) (by unfold cubicLaue; decide +kernel)
    (fun _ => hex_far ht fun c s hc hs => by
      simp only [toR, Matrix.mul_apply, Fin.sum_univ_three, Matrix.map_apply]
      rcases hc with rfl | rfl <;> rcases hs with rfl | rfl <;> refine ⟨?_, ?_⟩ <;> simp <;>
      first
        | (refine ⟨0, ?_, ?_, ?_⟩ <;> norm_num <;> linarith)
        | (refine ⟨-1, ?_, ?_, ?_⟩ <;> norm_num <;> linarith)
        | (refine ⟨1, ?_, ?_, ?_⟩ <;> norm_num <;> linarith)
        | (refine ⟨-2, ?_, ?_, ?_⟩ <;> norm_num <;> linarith))
  refine setLaue_of (x := .float [141 / 100, 142 / 100, 2]) (by norm_num) (by norm_num) (.inr rfl)
    (by simp [Nums.vals]) rfl ?_ hd hg
  simp only [primBase3, getD_get, Nums.vals, npdiv, Nums.isInt]
  norm_num
  ext i j
  fin_cases i <;> fin_cases j <;> simp [toR] <;> norm_num

end rational

end Verif.Props
