import Mathlib.LinearAlgebra.Matrix.NonsingularInverse
import Mathlib.Tactic.NormNum
import Mathlib.Tactic.Linarith
import Mathlib.Tactic.FieldSimp
import Mathlib.Algebra.BigOperators.Field
import Verif.Model.Box
import Verif.Spec.Box
import Verif.Props.Stereo

/-!
# Properties C81, C82, C83: `box`, `UnitCell` and `pole_figure`
-/

namespace Verif.Props

open Matrix Verif.Model Verif.Spec

/-! ### C81 -/

theorem colNorm_mul {r c : ℕ} (E : Matrix (Fin r) (Fin c) ℝ) (i : Fin c) :
    colNorm E i * colNorm E i = ∑ k, E k i * E k i :=
  Real.mul_self_sqrt (Finset.sum_nonneg fun _ _ => mul_self_nonneg _)

theorem colNorm_pos {E : Matrix (Fin 3) (Fin 3) ℝ} (h : OrthoCell E) (i : Fin 3) : 0 < colNorm E i := by
  obtain ⟨k, hk⟩ := h.2 i
  refine Real.sqrt_pos.mpr ?_
  have : E k i * E k i ≤ ∑ k, E k i * E k i :=
    Finset.single_le_sum (f := fun k => E k i * E k i) (fun _ _ => mul_self_nonneg _) (Finset.mem_univ k)
  exact lt_of_lt_of_le (mul_self_pos.mpr hk) this

theorem colProj_comb {E : Matrix (Fin 3) (Fin 3) ℝ} (h : OrthoCell E) {v c : Fin 3 → ℝ}
    (hv : ∀ k, v k = ∑ i, c i * E k i) (i : Fin 3) : colProj E v i = c i * colNorm E i := by
  have hp := colNorm_pos h i
  have h1 : colProj E v i * colNorm E i = ∑ k, v k * E k i := by
    unfold colProj
    rw [Finset.sum_mul]
    refine Finset.sum_congr rfl fun k _ => ?_
    field_simp
  have h2 : ∑ k, v k * E k i = c i * (colNorm E i * colNorm E i) := by
    rw [colNorm_mul]
    simp only [hv, Finset.sum_mul]
    rw [Finset.sum_comm, Finset.sum_eq_single i]
    · rw [Finset.mul_sum]
      exact Finset.sum_congr rfl fun k _ => by ring
    · intro j _ hj
      rw [show (∑ k, c j * E k j * E k i) = c j * ∑ k, E k j * E k i by
        rw [Finset.mul_sum]; exact Finset.sum_congr rfl fun k _ => by ring, h.1 j i hj, mul_zero]
    · simp
  have := h1.trans h2
  rw [← mul_assoc] at this
  exact mul_right_cancel₀ hp.ne' this

theorem ortho_comb {E : Matrix (Fin 3) (Fin 3) ℝ} (h : OrthoCell E) (v : Fin 3 → ℝ) :
    ∃ c : Fin 3 → ℝ, ∀ k, v k = ∑ i, c i * E k i := by
  set F : Matrix (Fin 3) (Fin 3) ℝ := Matrix.of fun i k => E k i / (colNorm E i * colNorm E i) with hF
  have h1 : F * E = 1 := by
    ext i j
    rw [Matrix.mul_apply, Matrix.one_apply]
    have hp := colNorm_pos h i
    by_cases hij : i = j
    · subst hij
      rw [if_pos rfl]
      have : ∑ k, F i k * E k i = (∑ k, E k i * E k i) / (colNorm E i * colNorm E i) := by
        rw [Finset.sum_div]
        exact Finset.sum_congr rfl fun k _ => by simp only [hF, Matrix.of_apply]; ring
      rw [this, ← colNorm_mul]
      exact div_self (mul_pos hp hp).ne'
    · rw [if_neg hij]
      have : ∑ k, F i k * E k j = (∑ k, E k i * E k j) / (colNorm E i * colNorm E i) := by
        rw [Finset.sum_div]
        exact Finset.sum_congr rfl fun k _ => by simp only [hF, Matrix.of_apply]; ring
      rw [this, h.1 i j hij, zero_div]
  have h2 : E * F = 1 := mul_eq_one_comm.mp h1
  refine ⟨F *ᵥ v, fun k => ?_⟩
  have h3 : (E *ᵥ (F *ᵥ v)) k = v k := by rw [Matrix.mulVec_mulVec, h2, Matrix.one_mulVec]
  rw [← h3]
  unfold Matrix.mulVec dotProduct
  exact Finset.sum_congr rfl fun i _ => mul_comm _ _

theorem inBox3_iff {E : Matrix (Fin 3) (Fin 3) ℝ} (v : Fin 3 → ℝ) :
    inBox3 E v = true ↔ ∀ i, 0 ≤ colProj E v i ∧ colProj E v i < 1.05 * colNorm E i := by
  unfold inBox3
  rw [Fin.forall_fin_succ, Fin.forall_fin_two]
  split
  · rename_i h
    simp only [decide_eq_true_eq]
    exact ⟨fun g => ⟨⟨g.1, h.1⟩, ⟨g.2.1, h.2.1⟩, ⟨g.2.2, h.2.2⟩⟩, fun g => ⟨g.1.1, g.2.1.1, g.2.2.1⟩⟩
  · rename_i h
    simp only [Bool.false_eq_true, false_iff]
    exact fun g => h ⟨g.1.2, g.2.1.2, g.2.2.2⟩

/-- C81, partial: when the columns of `E` are orthogonal, `box` keeps, in their order, exactly the points whose
coordinates with respect to the columns lie in `[0, 1.05)`.  Missing: cells that are not orthogonal
(`C81_oblique_fails`), two dimensions (`C81_plane_fails`), no point inside (`C81_empty_fails`). -/
theorem C81_orthogonal_partial (E : Matrix (Fin 3) (Fin 3) ℝ) (h : OrthoCell E) (vs : List (Fin 3 → ℝ)) :
    ∃ p : (Fin 3 → ℝ) → Bool,
      (∀ v, p v = true ↔ ∃ c : Fin 3 → ℝ, (∀ i, 0 ≤ c i ∧ c i < 1.05) ∧ ∀ k, v k = ∑ i, c i * E k i) ∧
      ((∃ v ∈ vs, p v = true) → box vs E 3 = .ok (.pts (vs.filter p))) := by
  refine ⟨inBox3 E, fun v => ?_, ?_⟩
  · rw [inBox3_iff]
    constructor
    · intro hv
      obtain ⟨c, hc⟩ := ortho_comb h v
      refine ⟨c, fun i => ?_, hc⟩
      have := hv i
      have hp := colNorm_pos h i
      rw [colProj_comb h hc] at this
      exact ⟨nonneg_of_mul_nonneg_left this.1 hp, lt_of_mul_lt_mul_right this.2 hp.le⟩
    · rintro ⟨c, hc, hv⟩ i
      have hp := colNorm_pos h i
      rw [colProj_comb h hv]
      exact ⟨mul_nonneg (hc i).1 hp.le, mul_lt_mul_of_pos_right (hc i).2 hp⟩
  · rintro ⟨v, hv, hp⟩
    have hne : vs ≠ [] := by
      rintro rfl
      cases hv
    unfold box
    rw [if_pos rfl, dif_pos ⟨rfl, rfl⟩, if_neg hne, dif_pos rfl]
    have hl : 0 < (vs.filter (inBox3 E)).length := List.length_pos_of_mem (List.mem_filter.mpr ⟨hv, hp⟩)
    simp only [Fin.cast_refl, Matrix.submatrix_id_id, id]
    unfold boxEnd
    rw [if_pos hl]

/-- C81: in particular the points of an orthogonal cell are kept, and nothing outside the cell enlarged by the
factor 1.05. -/
theorem C81_cell_partial (E : Matrix (Fin 3) (Fin 3) ℝ) (h : OrthoCell E) (vs : List (Fin 3 → ℝ)) (v : Fin 3 → ℝ)
    (hv : v ∈ vs) :
    (InCell E 1 v → ∃ l, box vs E 3 = .ok (.pts l) ∧ v ∈ l) ∧
    (∀ l, box vs E 3 = .ok (.pts l) → v ∈ l → InCell E 1.05 v) := by
  obtain ⟨p, hp, hb⟩ := C81_orthogonal_partial E h vs
  constructor
  · rintro ⟨c, hc, hcv⟩
    have : p v = true := (hp v).mpr ⟨c, fun i => ⟨(hc i).1, lt_of_le_of_lt (hc i).2 (by norm_num)⟩, hcv⟩
    exact ⟨_, hb ⟨v, hv, this⟩, List.mem_filter.mpr ⟨hv, this⟩⟩
  · intro l hl hvl
    unfold box at hl
    rw [if_pos rfl, dif_pos ⟨rfl, rfl⟩] at hl
    split at hl
    · cases hl
    rw [dif_pos rfl] at hl
    unfold boxEnd at hl
    split at hl
    · cases hl
      have h1 : inBox3 E v = true := (List.mem_filter.mp hvl).2
      rw [inBox3_iff] at h1
      obtain ⟨c, hc⟩ := ortho_comb h v
      refine ⟨c, fun i => ?_, hc⟩
      have := h1 i
      have hpn := colNorm_pos h i
      rw [colProj_comb h hc] at this
      exact ⟨nonneg_of_mul_nonneg_left this.1 hpn, (lt_of_mul_lt_mul_right this.2 hpn.le).le⟩
    · cases hl

/-- a cell and a point -/
example : ∃ l, box [![1, 1, 1], ![3, 0, 0]] (Matrix.diagonal ![2, 3, 4] : Matrix (Fin 3) (Fin 3) ℝ) 3 = .ok (.pts l) ∧
    ![1, 1, 1] ∈ l := by
  refine (C81_cell_partial _ ⟨?_, ?_⟩ _ ![1, 1, 1] (by simp)).1 ⟨![1 / 2, 1 / 3, 1 / 4], ?_, ?_⟩
  · intro i j hij
    fin_cases i <;> fin_cases j <;> simp_all [Fin.sum_univ_three, Matrix.diagonal_apply]
  · intro i
    exact ⟨i, by fin_cases i <;> simp⟩
  · intro i
    fin_cases i <;> norm_num
  · intro k
    fin_cases k <;> simp [Fin.sum_univ_three, Matrix.diagonal_apply]

/-- C81 fails for a cell with an angle of 45 degrees: the far corner of the base is dropped, and a point outside the
cell, even enlarged, is kept. -/
theorem C81_oblique_fails :
    ∃ (E : Matrix (Fin 3) (Fin 3) ℝ) (a b : Fin 3 → ℝ), InCell E 1 a ∧ ¬ InCell E 1.05 b ∧
      box [a, b] E 3 = .ok (.pts [b]) := by
  set E : Matrix (Fin 3) (Fin 3) ℝ := !![1, 1, 0; 0, 1, 0; 0, 0, 1] with hE
  have n0 : colNorm E 0 = 1 := by simp [colNorm, hE, Fin.sum_univ_three]
  have n2 : colNorm E 2 = 1 := by simp [colNorm, hE, Fin.sum_univ_three]
  have n1 : colNorm E 1 = Real.sqrt 2 := by
    simp [colNorm, hE, Fin.sum_univ_three]
    norm_num
  have h2 : 0 < Real.sqrt 2 := Real.sqrt_pos.mpr (by norm_num)
  have h2' : Real.sqrt 2 * Real.sqrt 2 = 2 := Real.mul_self_sqrt (by norm_num)
  refine ⟨E, ![2, 1, 0], ![0, 1, 0], ⟨![1, 1, 0], ?_, ?_⟩, ?_, ?_⟩
  · intro i
    fin_cases i <;> norm_num
  · intro k
    fin_cases k <;> simp [hE, Fin.sum_univ_three]
    norm_num
  · rintro ⟨c, hc, hv⟩
    have e0 := hv 0
    have e1 := hv 1
    simp [hE, Fin.sum_univ_three] at e0 e1
    have := (hc 0).1
    linarith
  · have ha : inBox3 E ![2, 1, 0] = false := by
      rw [← Bool.not_eq_true, inBox3_iff]
      intro h
      have := (h 0).2
      simp only [colProj, n0] at this
      simp [hE, Fin.sum_univ_three] at this
      norm_num at this
    have hb : inBox3 E ![0, 1, 0] = true := by
      rw [inBox3_iff]
      intro i
      fin_cases i
      · simp only [colProj, Fin.zero_eta, n0]
        simp [hE, Fin.sum_univ_three]
        norm_num
      · simp only [colProj, Fin.mk_one, n1]
        simp [hE, Fin.sum_univ_three]
        rw [inv_eq_one_div, div_lt_iff₀ h2]
        nlinarith
      · simp only [colProj, Fin.reduceFinMk, n2]
        simp [hE, Fin.sum_univ_three]
        norm_num
    unfold box
    rw [if_pos rfl, dif_pos ⟨rfl, rfl⟩, if_neg (by simp), dif_pos rfl]
    simp only [Fin.cast_refl, Matrix.submatrix_id_id, id]
    have : List.filter (fun v => inBox3 E fun i => v i) [![2, 1, 0], ![0, 1, 0]] = [![0, 1, 0]] := by
      simp only [List.filter_cons, List.filter_nil]
      rw [show (fun i => (![2, 1, 0] : Fin 3 → ℝ) i) = ![2, 1, 0] from rfl,
        show (fun i => (![0, 1, 0] : Fin 3 → ℝ) i) = ![0, 1, 0] from rfl, ha, hb]
      simp
    rw [this]
    rfl

/-- C81 fails in two dimensions, already for the unit square: a point on the other side of the origin is kept. -/
theorem C81_plane_fails :
    ¬ InCell (1 : Matrix (Fin 2) (Fin 2) ℝ) 1.05 ![-1, 0] ∧
    box [![-1, 0]] (1 : Matrix (Fin 2) (Fin 2) ℝ) 2 = .ok (.pts [![-1, 0]]) := by
  constructor
  · rintro ⟨c, hc, hv⟩
    have e0 := hv 0
    simp at e0
    have := (hc 0).1
    linarith
  · have h : inBox2 (1 : Matrix (Fin 2) (Fin 2) ℝ) ![-1, 0] = true := by
      unfold inBox2 colNorm
      rw [decide_eq_true_eq, Matrix.vecMul_one]
      simp
      norm_num
    unfold box
    rw [if_neg (by norm_num), if_pos rfl, dif_pos ⟨rfl, rfl⟩, if_neg (by simp), dif_pos rfl]
    simp only [Fin.cast_refl, Matrix.submatrix_id_id, id]
    simp only [List.filter_cons, List.filter_nil]
    rw [show (fun i => (![-1, 0] : Fin 2 → ℝ) i) = ![-1, 0] from rfl, h]
    rfl

/-- C81 fails when no point is inside: the result is the vector `[0, 0, 0]` instead of an empty array.  In two
dimensions it is the same vector of three numbers, also for arguments of a wrong shape. -/
theorem C81_empty_fails :
    box [![-1, 0, 0]] (1 : Matrix (Fin 3) (Fin 3) ℝ) 3 = .ok .zeros ∧
    ∀ (v : Fin 3 → ℝ) (vs : List (Fin 3 → ℝ)), box (v :: vs) (1 : Matrix (Fin 2) (Fin 2) ℝ) 2 = .ok .zeros := by
  constructor
  · have h : inBox3 (1 : Matrix (Fin 3) (Fin 3) ℝ) ![-1, 0, 0] = false := by
      rw [← Bool.not_eq_true, inBox3_iff]
      intro h
      have := (h 0).1
      simp [colProj, colNorm, Fin.sum_univ_three, Matrix.one_apply] at this
      norm_num at this
    unfold box
    rw [if_pos rfl, dif_pos ⟨rfl, rfl⟩, if_neg (by simp), dif_pos rfl]
    simp only [Fin.cast_refl, Matrix.submatrix_id_id, id]
    simp only [List.filter_cons, List.filter_nil]
    rw [show (fun i => (![-1, 0, 0] : Fin 3 → ℝ) i) = ![-1, 0, 0] from rfl, h]
    rfl
  · intro v vs
    unfold box
    rw [if_neg (by norm_num), if_pos rfl, dif_pos ⟨rfl, rfl⟩, if_neg (by simp), dif_neg (by norm_num)]
    rfl

/-- C81: what `box` does with a matrix of a wrong shape, no points, or another `n`. -/
theorem C81_errors {w r c : ℕ} (vs : List (Fin w → ℝ)) (E : Matrix (Fin r) (Fin c) ℝ) :
    (¬ (r = 3 ∧ c = 3) → box vs E 3 = .ok .nothing) ∧
    ((r = 3 ∧ c = 3) → vs = [] → box vs E 3 = .error .indexError) ∧
    ∀ n, n ≠ 2 → n ≠ 3 → box vs E n = .error .visualError := by
  refine ⟨fun h => ?_, fun h h0 => ?_, fun n h2 h3 => ?_⟩
  · unfold box
    rw [if_pos rfl, dif_neg h]
  · unfold box
    rw [if_pos rfl, dif_pos h, if_pos h0]
  · unfold box
    rw [if_neg h3, if_neg h2]

/-! ### C82 -/

/-- C82 fails: the constructor of `UnitCell` raises `TypeError` for all arguments, because it calls `BravaisLattice`
with a keyword that does not exist. -/
theorem C82_unit_cell_fails (py : Py) (origin : List ℝ) (latID : ℤ) (params : PArg) (N : ℤ) :
    UnitCell.new py origin latID params N = .error .typeError := by
  unfold UnitCell.new
  rw [show bindArgs bravaisParams 2 ["N"] = .error .typeError by decide +kernel]

/-- the call would be accepted with the keyword `dim` -/
example : bindArgs bravaisParams 2 ["dim"] = .ok () := by decide +kernel

/-! ### C83 -/

theorem poleLoop_spec {rnd : ℝ → ℝ} {z : Fin 3 → ℝ} {ps : List (Fin 3 → ℝ)} {qs : List (Option (Fin 2 → ℝ))} :
    poleLoop rnd z ps = .ok qs ↔ ps.map (fun p => stereoProj rnd p z) = qs.map .ok := by
  induction ps generalizing qs with
  | nil =>
    unfold poleLoop
    constructor
    · intro h
      cases h
      rfl
    · intro h
      rw [List.map_nil] at h
      rw [List.map_eq_nil_iff.mp h.symm]
  | cons p ps ih =>
    unfold poleLoop
    constructor
    · intro h
      split at h
      · cases h
      rename_i q hq
      split at h
      · cases h
      rename_i qs' hqs
      cases h
      rw [List.map_cons, List.map_cons, hq, ih.mp hqs]
    · intro h
      rcases qs with _ | ⟨q, qs⟩
      · simp at h
      rw [List.map_cons, List.map_cons, List.cons.injEq] at h
      rw [h.1]
      simp only
      rw [ih.mpr h.2]

/-- C83: for a list of triples `pole_figure` returns one point for each, in order, the one `stereo_proj` returns for it
alone; it raises only if one of these calls does. -/
theorem C83_pointwise (rnd : ℝ → ℝ) {m : ℕ} (P : Matrix (Fin m) (Fin 3) ℝ) (z : Fin 3 → ℝ)
    (Q : Fin m → Option (Fin 2 → ℝ)) :
    poleFigure rnd (.mat m 3 P) z = .ok (some (List.ofFn Q)) ↔ ∀ i, stereoProj rnd (P i) z = .ok (Q i) := by
  have h1 : ∀ qs, poleFigure rnd (.mat m 3 P) z = .ok (some qs) ↔
      poleLoop rnd z (List.ofFn fun (r : Fin m) i => P r i) = .ok qs := by
    intro qs
    unfold poleFigure
    simp only [dite_true, Fin.cast_refl, id]
    split <;> rename_i h <;> simp [h]
  rw [h1, poleLoop_spec, List.map_ofFn, List.map_ofFn, List.ofFn_inj, funext_iff]
  rfl

/-- C83: a single triple is treated as a list of one. -/
theorem C83_single (rnd : ℝ → ℝ) (p z : Fin 3 → ℝ) (q : Option (Fin 2 → ℝ)) :
    poleFigure rnd (.vec 3 p) z = .ok (some [q]) ↔ stereoProj rnd p z = .ok q := by
  have h1 : ∀ qs, poleFigure rnd (.vec 3 p) z = .ok (some qs) ↔ poleLoop rnd z [p] = .ok qs := by
    intro qs
    unfold poleFigure
    simp only [dite_true, Fin.cast_refl, id]
    split <;> rename_i h <;> simp [h]
  rw [h1, poleLoop_spec]
  simp

/-- C83: for integer planes and an integer zone axis other than zero the call returns a point of the disc for every
plane. -/
theorem C83_integer {rnd : ℝ → ℝ} (hr : IsRound rnd) {m : ℕ} (P : Matrix (Fin m) (Fin 3) ℤ) (z : Fin 3 → ℤ)
    (hz : z ≠ 0) : ∃ v : Fin m → Fin 2 → ℝ,
      poleFigure rnd (.mat m 3 fun i j => (P i j : ℝ)) (fun i => (z i : ℝ)) = .ok (some (List.ofFn fun i => some (v i))) ∧
      ∀ i, v i 0 ^ 2 + v i 1 ^ 2 ≤ ((z 0 : ℝ) ^ 2 + z 1 ^ 2 + z 2 ^ 2) := by
  choose v h1 h2 using fun i => C64_integer_disc hr (P i) z hz
  exact ⟨v, (C83_pointwise rnd _ _ _).mpr h1, h2⟩

/-- C83: for arrays of another shape, and for the empty list, nothing is computed. -/
theorem C83_shape (rnd : ℝ → ℝ) (z : Fin 3 → ℝ) :
    poleFigure rnd .deep z = .ok none ∧
    (∀ k p, k ≠ 3 → poleFigure rnd (.vec k p) z = .ok none) ∧
    ∀ m k p, k ≠ 3 → poleFigure rnd (.mat m k p) z = .ok none :=
  ⟨rfl, fun _ _ h => dif_neg h, fun _ _ _ h => dif_neg h⟩

end Verif.Props
