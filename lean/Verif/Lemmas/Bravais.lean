import Verif.Model.Bravais
import Verif.Spec.Bravais
import Verif.Lemmas.Lattice

/-! # Lemmas about the Bravais cells -/

namespace Verif.Lemmas

open Matrix Verif.Model Verif.Spec

/-- The inverse of the centring matrix, with integer entries. -/
def cellMat3 (n : ℤ) : Matrix (Fin 3) (Fin 3) ℤ :=
  if n = 2 ∨ n = 10 then !![1, 1, -1; -1, 1, 1; 1, -1, 1]
  else if n = 3 ∨ n = 7 ∨ n = 11 then !![1, 0, 1; -1, 1, 0; 0, -1, 1]
  else if n = 9 ∨ n = 13 then !![1, 1, 0; -1, 1, 0; 0, 0, 1]
  else 1

def cellMat2 (n : ℤ) : Matrix (Fin 2) (Fin 2) ℤ := if n = 3 then !![1, 1; -1, 1] else 1

theorem centring3_inv (n : ℤ) : (centring3 n)⁻¹ = toR (cellMat3 n) := by
  apply Matrix.inv_eq_right_inv
  unfold centring3 cellMat3
  split_ifs
  · ext i j; fin_cases i <;> fin_cases j <;>
      simp [toR, Matrix.mul_apply, Fin.sum_univ_three] <;> norm_num
  · ext i j; fin_cases i <;> fin_cases j <;>
      simp [toR, Matrix.mul_apply, Fin.sum_univ_three] <;> norm_num
  · ext i j; fin_cases i <;> fin_cases j <;>
      simp [toR, Matrix.mul_apply, Fin.sum_univ_three] <;> norm_num
  · rw [toR_one, Matrix.mul_one]

theorem centring2_inv (n : ℤ) : (centring2 n)⁻¹ = toR (cellMat2 n) := by
  apply Matrix.inv_eq_right_inv
  unfold centring2 cellMat2
  split_ifs
  · ext i j; fin_cases i <;> fin_cases j <;>
      simp [toR, Matrix.mul_apply, Fin.sum_univ_two] <;> norm_num
  · rw [toR_one, Matrix.mul_one]

theorem cosDeg_90 : cosDeg 90 = 0 := by
  rw [cosDeg, show (90 : ℝ) * Real.pi / 180 = Real.pi / 2 by ring, Real.cos_pi_div_two]

theorem cosDeg_60 : cosDeg 60 = 1 / 2 := by
  rw [cosDeg, show (60 : ℝ) * Real.pi / 180 = Real.pi / 3 by ring, Real.cos_pi_div_three]

theorem sinDeg_pos {x : ℝ} (h0 : 0 < x) (h1 : x < 180) : 0 < Real.sin (radians x) := by
  apply Real.sin_pos_of_pos_of_lt_pi
  · unfold radians; have := Real.pi_pos; positivity
  · unfold radians
    have := Real.pi_pos
    rw [div_lt_iff₀ (by norm_num)]
    nlinarith

theorem npdiv_exact {py : Py} {i : Bool} (h : py = .py3 ∨ i = false) (x y : ℝ) :
    npdiv py i x y = x / y := by
  unfold npdiv
  rw [if_neg]
  rintro ⟨h1, h2⟩
  rcases h with h | h
  · rw [h] at h1; cases h1
  · rw [h] at h2; cases h2

theorem initBase_none {N : ℕ} : initBase (none : Option (Matrix (Fin N) (Fin N) ℝ)) = .ok () := rfl

theorem initBase_some {N : ℕ} (E : Matrix (Fin N) (Fin N) ℝ) :
    initBase (some E) = if E.det = 0 then .error .valueError else .ok () := by
  by_cases h : E.det = 0
  · rw [if_pos h]
    simp [initBase, Lat.new, castSq_rfl, h]
  · rw [if_neg h]
    simp only [initBase, lat_new_sq false h]

theorem checkParam_ok {arg : PArg} {x : Nums} (h : checkParam arg = .ok x) :
    (arg = .num x ∨ arg = .list x) ∧ ∀ v ∈ x.vals, 0 < v := by
  unfold checkParam at h
  split at h
  · cases h
  · split_ifs at h with hc
    cases h
    push Not at hc
    exact ⟨.inl rfl, hc⟩
  · split_ifs at h with hc
    cases h
    push Not at hc
    exact ⟨.inr rfl, hc⟩

theorem checkParam_list {x : Nums} (h : ∀ v ∈ x.vals, 0 < v) : checkParam (.list x) = .ok x := by
  simp only [checkParam]
  rw [if_neg]
  push Not
  exact h

theorem checkParam_num {x : Nums} (h : ∀ v ∈ x.vals, 0 < v) : checkParam (.num x) = .ok x := by
  simp only [checkParam]
  rw [if_neg]
  push Not
  exact h

theorem get_pos {x : Nums} (h : ∀ v ∈ x.vals, 0 < v) {i : ℕ} (hi : i < x.vals.length) : 0 < x.get i := by
  unfold Nums.get
  rw [List.getD_eq_getElem?_getD, List.getElem?_eq_getElem hi, Option.getD_some]
  exact h _ (List.getElem_mem _)

theorem paramLen3_eq {id : ℤ} (h1 : 1 ≤ id) (h2 : id < 15) :
    paramLen3.getD (id - 1).toNat 0 = paramCount3 id := by
  interval_cases id <;> rfl

theorem paramLen2_eq {id : ℤ} (h1 : 1 ≤ id) (h2 : id < 6) :
    paramLen2.getD (id - 1).toNat 0 = paramCount2 id := by
  interval_cases id <;> rfl

/-- The construction succeeds with a finite cell of the requested shape. -/
def Good3 (py : Py) (i : Bool) (id : ℤ) (p : ℕ → ℝ) : Prop :=
  ∃ E, primBase3 py i id p = some E ∧
    (E * toR (cellMat3 id))ᵀ * (E * toR (cellMat3 id)) = metric3 (lengths3 id p) (angles3 id p) ∧ 0 < E.det

theorem good3_of {py : Py} {i : Bool} {id : ℤ} {p : ℕ → ℝ} (E : Matrix (Fin 3) (Fin 3) ℝ)
    (h : primBase3 py i id p = some E) (B : Matrix (Fin 3) (Fin 3) ℝ)
    (hB : E * toR (cellMat3 id) = B) (hm : Bᵀ * B = metric3 (lengths3 id p) (angles3 id p))
    (hd : 0 < E.det) : Good3 py i id p := ⟨E, h, by rw [hB, hm], hd⟩

macro "mat3" : tactic => `(tactic|
  (ext i j; fin_cases i <;> fin_cases j <;>
    simp [toR, cellMat3, Matrix.mul_apply, Fin.sum_univ_three, metric3, lengths3, angles3, cosDeg_90,
      cosDeg_60] <;> (try ring_nf) <;> (try norm_num)))

theorem sqrt3_pos : 0 < Real.sqrt 3 := Real.sqrt_pos.mpr (by norm_num)
theorem sqrt3_mul : Real.sqrt 3 * Real.sqrt 3 = 3 := Real.mul_self_sqrt (by norm_num)
theorem sqrt2_mul : Real.sqrt 2 * Real.sqrt 2 = 2 := Real.mul_self_sqrt (by norm_num)

theorem good3_1 (py i) (p : ℕ → ℝ) (h0 : 0 < p 0) : Good3 py i 1 p := by
  refine good3_of _ (by simp only [primBase3]; rfl) (Matrix.diagonal ![p 0, p 0, p 0]) (by mat3)
    (by mat3) ?_
  simp [Matrix.det_fin_three]
  positivity

theorem good3_2 (py i) (p : ℕ → ℝ) (h0 : 0 < p 0) : Good3 py i 2 p := by
  refine good3_of _ (by simp only [primBase3]; rfl) (Matrix.diagonal ![p 0, p 0, p 0]) (by mat3)
    (by mat3) ?_
  simp [Matrix.det_fin_three]
  ring_nf
  positivity

theorem good3_3 (py i) (p : ℕ → ℝ) (h0 : 0 < p 0) : Good3 py i 3 p := by
  refine good3_of _ (by simp only [primBase3]; rfl) (Matrix.diagonal ![p 0, p 0, p 0]) (by mat3)
    (by mat3) ?_
  simp [Matrix.det_fin_three]
  ring_nf
  positivity

theorem good3_4 (py i) (p : ℕ → ℝ) (h0 : 0 < p 0) (h1 : 0 < p 1) : Good3 py i 4 p := by
  refine good3_of _ (by simp only [primBase3]; rfl)
    !![p 0, p 0 / 2, 0; 0, p 0 * (Real.sqrt 3 / 2), 0; 0, 0, p 1] (by mat3)
    (by
      have := sqrt3_mul
      ext i j; fin_cases i <;> fin_cases j <;>
        simp [Matrix.mul_apply, Fin.sum_univ_three, metric3, lengths3, angles3, cosDeg_90, cosDeg_60] <;>
        nlinarith) ?_
  have := sqrt3_pos
  simp [Matrix.det_fin_three]
  positivity

theorem good3_6 (py i) (p : ℕ → ℝ) (h0 : 0 < p 0) (h1 : 0 < p 1) : Good3 py i 6 p := by
  refine good3_of _ (by simp only [primBase3]; rfl) (Matrix.diagonal ![p 0, p 0, p 1]) (by mat3)
    (by mat3) ?_
  simp [Matrix.det_fin_three]
  positivity

theorem good3_7 {py i} (he : py = .py3 ∨ i = false) (p : ℕ → ℝ) (h0 : 0 < p 0) (h1 : 0 < p 1) :
    Good3 py i 7 p := by
  refine good3_of _ (by simp only [primBase3, npdiv_exact he]; rfl) (Matrix.diagonal ![p 0, p 0, p 1])
    (by
      ext i j; fin_cases i <;> fin_cases j <;>
        simp [toR, cellMat3, Matrix.mul_apply, Fin.sum_univ_three] <;> (try field_simp) <;> (try ring_nf))
    (by mat3) ?_
  simp [Matrix.det_fin_three]
  have : p 0 / 2 * (p 0 / 2) * (p 0 / 2 * (p 1 / p 0)) > 0 := by positivity
  nlinarith

theorem good3_8 (py i) (p : ℕ → ℝ) (h0 : 0 < p 0) (h1 : 0 < p 1) (h2 : 0 < p 2) : Good3 py i 8 p := by
  refine good3_of _ (by simp only [primBase3]; rfl) (Matrix.diagonal ![p 0, p 1, p 2]) (by mat3)
    (by mat3) ?_
  simp [Matrix.det_fin_three]
  positivity

theorem good3_9 {py i} (he : py = .py3 ∨ i = false) (p : ℕ → ℝ) (h0 : 0 < p 0) (h1 : 0 < p 1)
    (h2 : 0 < p 2) : Good3 py i 9 p := by
  refine good3_of _ (by simp only [primBase3, npdiv_exact he]; rfl) (Matrix.diagonal ![p 0, p 1, p 2])
    (by mat3) (by mat3) ?_
  simp [Matrix.det_fin_three]
  have : 0 < p 0 * p 1 * p 2 := by positivity
  nlinarith

theorem good3_10 {py i} (he : py = .py3 ∨ i = false) (p : ℕ → ℝ) (h0 : 0 < p 0) (h1 : 0 < p 1)
    (h2 : 0 < p 2) : Good3 py i 10 p := by
  refine good3_of _ (by simp only [primBase3, npdiv_exact he]; rfl) (Matrix.diagonal ![p 0, p 1, p 2])
    (by mat3) (by mat3) ?_
  simp [Matrix.det_fin_three]
  have : 0 < p 0 * p 1 * p 2 := by positivity
  nlinarith

theorem good3_11 {py i} (he : py = .py3 ∨ i = false) (p : ℕ → ℝ) (h0 : 0 < p 0) (h1 : 0 < p 1)
    (h2 : 0 < p 2) : Good3 py i 11 p := by
  refine good3_of _ (by simp only [primBase3, npdiv_exact he]; rfl) (Matrix.diagonal ![p 0, p 1, p 2])
    (by mat3) (by mat3) ?_
  simp [Matrix.det_fin_three]
  have : 0 < p 0 * p 1 * p 2 := by positivity
  nlinarith

theorem good3_12 (py i) (p : ℕ → ℝ) (h0 : 0 < p 0) (h1 : 0 < p 1) (h2 : 0 < p 2)
    (hs : 0 < Real.sin (radians (p 3))) : Good3 py i 12 p := by
  have hsc := Real.sin_sq_add_cos_sq (radians (p 3))
  have hc : cosDeg (p 3) = Real.cos (radians (p 3)) := rfl
  refine good3_of _ (by simp only [primBase3]; rfl)
    !![p 0, 0, p 2 * Real.cos (radians (p 3)); 0, p 1, 0; 0, 0, p 2 * Real.sin (radians (p 3))]
    (by mat3)
    (by
      ext i j; fin_cases i <;> fin_cases j <;>
        simp [Matrix.mul_apply, Fin.sum_univ_three, metric3, lengths3, angles3, cosDeg_90, hc] <;>
        (try ring_nf)
      linear_combination p 2 ^ 2 * hsc) ?_
  simp [Matrix.det_fin_three]
  positivity

theorem good3_13 {py i} (he : py = .py3 ∨ i = false) (p : ℕ → ℝ) (h0 : 0 < p 0) (h1 : 0 < p 1)
    (h2 : 0 < p 2) (hs : 0 < Real.sin (radians (p 3))) : Good3 py i 13 p := by
  have hsc := Real.sin_sq_add_cos_sq (radians (p 3))
  have hc : cosDeg (p 3) = Real.cos (radians (p 3)) := rfl
  refine good3_of _ (by simp only [primBase3, npdiv_exact he]; rfl)
    !![p 0, 0, p 2 * Real.cos (radians (p 3)); 0, p 1, 0; 0, 0, p 2 * Real.sin (radians (p 3))]
    (by mat3)
    (by
      ext i j; fin_cases i <;> fin_cases j <;>
        simp [Matrix.mul_apply, Fin.sum_univ_three, metric3, lengths3, angles3, cosDeg_90, hc] <;>
        (try ring_nf)
      linear_combination p 2 ^ 2 * hsc) ?_
  simp [Matrix.det_fin_three]
  have : 0 < p 0 * p 1 * (p 2 * Real.sin (radians (p 3))) := by positivity
  nlinarith

theorem good3_5 (py i) (p : ℕ → ℝ) (h0 : 0 < p 0) (hc1 : 0 < 1 - Real.cos (radians (p 1)))
    (hc2 : 0 < 1 + 2 * Real.cos (radians (p 1))) : Good3 py i 5 p := by
  have hc : cosDeg (p 1) = Real.cos (radians (p 1)) := rfl
  set c := Real.cos (radians (p 1)) with hcdef
  have hy : Real.sqrt ((1 - c) / 6) * Real.sqrt ((1 - c) / 6) = (1 - c) / 6 :=
    Real.mul_self_sqrt (by linarith)
  have hz : Real.sqrt ((1 + 2 * c) / 3) * Real.sqrt ((1 + 2 * c) / 3) = (1 + 2 * c) / 3 :=
    Real.mul_self_sqrt (by linarith)
  have hyp : 0 < Real.sqrt ((1 - c) / 6) := Real.sqrt_pos.mpr (by linarith)
  have hzp : 0 < Real.sqrt ((1 + 2 * c) / 3) := Real.sqrt_pos.mpr (by linarith)
  have h3 := sqrt3_mul
  have h3p := sqrt3_pos
  have h2 := sqrt2_mul
  have hbase : primBase3 py i 5 p = some ((p 0 / Real.sqrt 3) •
      !![Real.sqrt ((1 + 2 * c) / 3) - 2 * Real.sqrt 2 * Real.sqrt ((1 - c) / 6),
         Real.sqrt ((1 + 2 * c) / 3) + Real.sqrt 2 * Real.sqrt ((1 - c) / 6),
         Real.sqrt ((1 + 2 * c) / 3) + Real.sqrt 2 * Real.sqrt ((1 - c) / 6);
         Real.sqrt ((1 + 2 * c) / 3) + Real.sqrt 2 * Real.sqrt ((1 - c) / 6),
         Real.sqrt ((1 + 2 * c) / 3) - 2 * Real.sqrt 2 * Real.sqrt ((1 - c) / 6),
         Real.sqrt ((1 + 2 * c) / 3) + Real.sqrt 2 * Real.sqrt ((1 - c) / 6);
         Real.sqrt ((1 + 2 * c) / 3) + Real.sqrt 2 * Real.sqrt ((1 - c) / 6),
         Real.sqrt ((1 + 2 * c) / 3) + Real.sqrt 2 * Real.sqrt ((1 - c) / 6),
         Real.sqrt ((1 + 2 * c) / 3) - 2 * Real.sqrt 2 * Real.sqrt ((1 - c) / 6)]ᵀ) := by
    simp only [primBase3]
    rw [if_neg (by decide), if_neg (by decide), if_neg (by decide), if_neg (by decide), if_pos trivial,
      if_neg]
    push Not
    constructor <;> linarith
  generalize Real.sqrt ((1 - c) / 6) = y at *
  generalize Real.sqrt ((1 + 2 * c) / 3) = z at *
  generalize Real.sqrt 2 = s at *
  have hk : p 0 / Real.sqrt 3 * (p 0 / Real.sqrt 3) = p 0 * p 0 / 3 := by
    rw [div_mul_div_comm, h3]
  have hkp : 0 < p 0 / Real.sqrt 3 := by positivity
  generalize p 0 / Real.sqrt 3 = k at *
  have hT : toR (cellMat3 5) = 1 := by rw [show cellMat3 5 = 1 by decide +kernel, toR_one]
  have diag : k ^ 2 * ((z - 2 * s * y) ^ 2 + 2 * (z + s * y) ^ 2) = p 0 * p 0 := by
    have : (z - 2 * s * y) ^ 2 + 2 * (z + s * y) ^ 2 = 3 := by
      linear_combination 3 * hz + 6 * y * y * h2 + 12 * hy
    rw [this, sq, hk]; ring
  have off : k ^ 2 * (2 * (z - 2 * s * y) * (z + s * y) + (z + s * y) ^ 2) = p 0 * p 0 * c := by
    have : 2 * (z - 2 * s * y) * (z + s * y) + (z + s * y) ^ 2 = 3 * c := by
      linear_combination 3 * hz - 3 * y * y * h2 - 6 * hy
    rw [this, sq, hk]; ring
  refine ⟨_, hbase, ?_, ?_⟩
  · rw [hT, Matrix.mul_one]
    ext i j
    fin_cases i <;> fin_cases j <;>
      simp [Matrix.mul_apply, Fin.sum_univ_three, metric3, lengths3, angles3, hc] <;>
      first
        | linear_combination diag
        | linear_combination off
  · have : 0 < k ^ 3 * (27 * (s * s) * (y * y) * z * 2) := by rw [h2]; positivity
    simp [Matrix.det_fin_three]
    ring_nf at this ⊢
    nlinarith

theorem good3_14 (py i) (p : ℕ → ℝ) (h0 : 0 < p 0) (h1 : 0 < p 1) (h2 : 0 < p 2)
    (hs : 0 < Real.sin (radians (p 5)))
    (hw : 0 < 1 + 2 * Real.cos (radians (p 3)) * Real.cos (radians (p 4)) * Real.cos (radians (p 5))
      - Real.cos (radians (p 3)) ^ 2 - Real.cos (radians (p 4)) ^ 2 - Real.cos (radians (p 5)) ^ 2) :
    Good3 py i 14 p := by
  have hsc := Real.sin_sq_add_cos_sq (radians (p 5))
  have ha : cosDeg (p 3) = Real.cos (radians (p 3)) := rfl
  have hb : cosDeg (p 4) = Real.cos (radians (p 4)) := rfl
  have hc : cosDeg (p 5) = Real.cos (radians (p 5)) := rfl
  have hbase : primBase3 py i 14 p = some !![p 0, 0, 0; p 1 * Real.cos (radians (p 5)),
      p 1 * Real.sin (radians (p 5)), 0;
      p 2 * Real.cos (radians (p 4)), p 2 * (Real.cos (radians (p 3)) - Real.cos (radians (p 4)) *
        Real.cos (radians (p 5))) / Real.sin (radians (p 5)),
      p 2 * Real.sqrt (1 + 2 * Real.cos (radians (p 3)) * Real.cos (radians (p 4)) *
        Real.cos (radians (p 5)) - Real.cos (radians (p 3)) ^ 2 - Real.cos (radians (p 4)) ^ 2
        - Real.cos (radians (p 5)) ^ 2) / Real.sin (radians (p 5))]ᵀ := by
    simp only [primBase3]
    iterate 13 rw [if_neg (by decide)]
    rw [if_neg]
    push Not
    exact ⟨by linarith, hs.ne'⟩
  have hT : toR (cellMat3 14) = 1 := by rw [show cellMat3 14 = 1 by decide +kernel, toR_one]
  have hq := Real.mul_self_sqrt hw.le
  have hqp := Real.sqrt_pos.mpr hw
  generalize hwdef : 1 + 2 * Real.cos (radians (p 3)) * Real.cos (radians (p 4)) *
        Real.cos (radians (p 5)) - Real.cos (radians (p 3)) ^ 2 - Real.cos (radians (p 4)) ^ 2
        - Real.cos (radians (p 5)) ^ 2 = w at *
  generalize Real.sqrt w = q at *
  generalize Real.cos (radians (p 3)) = ca at *
  generalize Real.cos (radians (p 4)) = cb at *
  generalize Real.cos (radians (p 5)) = cc at *
  generalize Real.sin (radians (p 5)) = s at *
  refine ⟨_, hbase, ?_, ?_⟩
  · rw [hT, Matrix.mul_one]
    ext i j
    fin_cases i <;> fin_cases j <;>
      simp [Matrix.mul_apply, Fin.sum_univ_three, metric3, lengths3, angles3, ha, hb, hc] <;>
      (try ring_nf)
    · linear_combination p 1 ^ 2 * hsc
    · field_simp; ring
    · field_simp; ring
    · field_simp
      linear_combination hq + (cb ^ 2 - 1) * hsc - hwdef
  · simp [Matrix.det_fin_three]
    positivity

theorem good3_all {py : Py} {i : Bool} (he : py = .py3 ∨ i = false) {id : ℤ} (h1 : 1 ≤ id)
    (h2 : id < 15) {p : ℕ → ℝ} (hp : ∀ k < paramCount3 id, 0 < p k) (hf : Feasible3 (angles3 id p)) :
    Good3 py i id p := by
  obtain ⟨hr, hw⟩ := hf
  interval_cases id
  · exact good3_1 _ _ p (hp 0 (by decide))
  · exact good3_2 _ _ p (hp 0 (by decide))
  · exact good3_3 _ _ p (hp 0 (by decide))
  · exact good3_4 _ _ p (hp 0 (by decide)) (hp 1 (by decide))
  · have h5 : angles3 5 p = ![p 1, p 1, p 1] := by simp [angles3]
    rw [h5] at hw hr
    have hw' : 0 < (1 - cosDeg (p 1)) ^ 2 * (1 + 2 * cosDeg (p 1)) := by
      have e : (1 - cosDeg (p 1)) ^ 2 * (1 + 2 * cosDeg (p 1)) =
          1 + 2 * cosDeg (p 1) * cosDeg (p 1) * cosDeg (p 1) - cosDeg (p 1) ^ 2 - cosDeg (p 1) ^ 2
            - cosDeg (p 1) ^ 2 := by ring
      rw [e]; simpa using hw
    have hle : cosDeg (p 1) ≤ 1 := Real.cos_le_one _
    have hne : cosDeg (p 1) ≠ 1 := by
      intro h; rw [h] at hw'; norm_num at hw'
    refine good3_5 _ _ p (hp 0 (by decide)) ?_ ?_
    · have : cosDeg (p 1) < 1 := lt_of_le_of_ne hle hne
      have h : Real.cos (radians (p 1)) = cosDeg (p 1) := rfl
      linarith
    · exact pos_of_mul_pos_right hw' (sq_nonneg _)
  · exact good3_6 _ _ p (hp 0 (by decide)) (hp 1 (by decide))
  · exact good3_7 he p (hp 0 (by decide)) (hp 1 (by decide))
  · exact good3_8 _ _ p (hp 0 (by decide)) (hp 1 (by decide)) (hp 2 (by decide))
  · exact good3_9 he p (hp 0 (by decide)) (hp 1 (by decide)) (hp 2 (by decide))
  · exact good3_10 he p (hp 0 (by decide)) (hp 1 (by decide)) (hp 2 (by decide))
  · exact good3_11 he p (hp 0 (by decide)) (hp 1 (by decide)) (hp 2 (by decide))
  · refine good3_12 _ _ p (hp 0 (by decide)) (hp 1 (by decide)) (hp 2 (by decide)) ?_
    have := hr 1
    simp [angles3] at this
    exact sinDeg_pos this.1 this.2
  · refine good3_13 he p (hp 0 (by decide)) (hp 1 (by decide)) (hp 2 (by decide)) ?_
    have := hr 1
    simp [angles3] at this
    exact sinDeg_pos this.1 this.2
  · have h14 : angles3 14 p = ![p 3, p 4, p 5] := by simp [angles3]
    rw [h14] at hw hr
    refine good3_14 _ _ p (hp 0 (by decide)) (hp 1 (by decide)) (hp 2 (by decide)) ?_ hw
    have := hr 2
    exact sinDeg_pos this.1 this.2

/-- The two-dimensional cells. -/
def Good2 (id : ℤ) (p : ℕ → ℝ) : Prop :=
  (primBase2 id p * toR (cellMat2 id))ᵀ * (primBase2 id p * toR (cellMat2 id)) =
    metric2 (lengths2 id p) (angle2 id p) ∧ 0 < (primBase2 id p).det

theorem good2_all {id : ℤ} (h1 : 1 ≤ id) (h2 : id < 6) {p : ℕ → ℝ}
    (hp : ∀ k < paramCount2 id, 0 < p k) (hf : 0 < angle2 id p ∧ angle2 id p < 180) : Good2 id p := by
  have p0 : 0 < p 0 := by interval_cases id <;> exact hp 0 (by decide)
  interval_cases id
  · constructor
    · ext i j; fin_cases i <;> fin_cases j <;>
        simp [primBase2, cellMat2, toR, Matrix.mul_apply, Fin.sum_univ_two, metric2, lengths2, angle2,
          cosDeg_90]
    · simp [primBase2, Matrix.det_fin_two]; positivity
  · have p1 := hp 1 (by decide)
    constructor
    · ext i j; fin_cases i <;> fin_cases j <;>
        simp [primBase2, cellMat2, toR, Matrix.mul_apply, Fin.sum_univ_two, metric2, lengths2, angle2,
          cosDeg_90]
    · simp [primBase2, Matrix.det_fin_two]; positivity
  · have p1 := hp 1 (by decide)
    constructor
    · ext i j; fin_cases i <;> fin_cases j <;>
        simp [primBase2, cellMat2, toR, Matrix.mul_apply, Fin.sum_univ_two, metric2, lengths2, angle2,
          cosDeg_90] <;> ring
    · simp [primBase2, Matrix.det_fin_two]
      have : 0 < p 0 * p 1 := by positivity
      nlinarith
  · have h3 := sqrt3_mul
    have h3p := sqrt3_pos
    constructor
    · ext i j; fin_cases i <;> fin_cases j <;>
        simp [primBase2, cellMat2, toR, Matrix.mul_apply, Fin.sum_univ_two, metric2, lengths2, angle2,
          cosDeg_60] <;> nlinarith
    · simp [primBase2, Matrix.det_fin_two]; positivity
  · have p1 := hp 1 (by decide)
    have hsc := Real.sin_sq_add_cos_sq (radians (p 2))
    have ha : angle2 5 p = p 2 := by simp [angle2]
    rw [ha] at hf
    have hs := sinDeg_pos hf.1 hf.2
    have hc : cosDeg (p 2) = Real.cos (radians (p 2)) := rfl
    constructor
    · rw [ha]
      ext i j; fin_cases i <;> fin_cases j <;>
        simp [primBase2, cellMat2, toR, Matrix.mul_apply, Fin.sum_univ_two, metric2, lengths2, hc]
      · ring
      · ring
      · linear_combination p 1 ^ 2 * hsc
    · simp [primBase2, Matrix.det_fin_two]; positivity

end Verif.Lemmas
