import Mathlib.LinearAlgebra.Matrix.Trace
import Verif.Props.Lattice

/-!
# C15 - C18: the symmetry groups of a lattice, continued
-/

namespace Verif.Props

open Matrix Verif.Spec Verif.Model Verif.Lemmas

variable {n : ℕ}

/-! ## C15: the hypothesis, and what happens without it -/

theorem isIntegral_toR {m k : ℕ} (A : Matrix (Fin m) (Fin k) ℤ) : IsIntegral (toR A) :=
  (isIntegral_iff _).mpr ⟨A, rfl⟩

/-- An integer orthogonal matrix is a symmetry of the primitive cubic lattice. -/
theorem inPointGroup_unit {Q : Matrix (Fin n) (Fin n) ℤ} (h : Q * Qᵀ = 1) :
    InPointGroup (1 : Matrix (Fin n) (Fin n) ℝ) (toR Q) := by
  rw [inPointGroup_iff (by simp)]
  refine ⟨by rw [← toR_transpose, ← toR_mul, h, toR_one], ?_⟩
  rw [inv_one, Matrix.one_mul, Matrix.mul_one]
  exact isIntegral_toR Q

theorem cubic_ortho : ∀ Q ∈ cubicLaue, Q * Qᵀ = 1 := by unfold cubicLaue; decide +kernel
theorem squareExt_ortho : ∀ Q ∈ squareExt, Q * Qᵀ = 1 := by unfold squareExt; decide +kernel

-- the primitive cubic lattice meets the hypothesis of C15 with the tolerances of the code
example : Reliable .code (1 : Matrix (Fin 3) (Fin 3) ℝ) candidates3 := by
  refine .inr ⟨rfl, ?_⟩
  intro Q hQ
  rcases List.mem_append.mp hQ with hQ | hQ
  · obtain ⟨R, hR, rfl⟩ := List.mem_map.mp hQ
    exact .inl (inPointGroup_unit (cubic_ortho R hR))
  · have half : ∀ Q : Matrix (Fin 3) (Fin 3) ℝ, Q 0 0 = 1 / 2 ∨ Q 0 0 = -1 / 2 →
        ∃ i j : Fin 3, ∀ z : ℤ, 1 / 10 ^ 8 + 1 / 10 ^ 5 * |(z : ℝ)| <
          |((1 : Matrix (Fin 3) (Fin 3) ℝ)⁻¹ * (Q * 1) : Matrix (Fin 3) (Fin 3) ℝ) i j - z| := by
      intro Q hQ
      refine ⟨0, 0, ?_⟩
      rw [inv_one, Matrix.one_mul, Matrix.mul_one]
      rcases hQ with h | h <;> rw [h]
      · exact far_of_between 0 (by norm_num) (by norm_num) (by norm_num)
      · exact far_of_between (-1) (by norm_num) (by norm_num) (by norm_num)
    simp only [hexLaue, List.map_cons, List.map_nil, List.mem_cons, List.not_mem_nil, or_false,
      NMat.val] at hQ
    rcases hQ with rfl | rfl | rfl | rfl | rfl | rfl | rfl | rfl | rfl | rfl | rfl | rfl
    · exact .inl (inPointGroup_unit (by decide +kernel))
    · exact .inl (inPointGroup_unit (by decide +kernel))
    · exact .inl (inPointGroup_unit (by decide +kernel))
    · exact .inl (inPointGroup_unit (by decide +kernel))
    all_goals
      refine .inr (half _ ?_)
      first
        | (left; simp [hexC_eq]; done)
        | (right; simp [hexC_eq]; norm_num; done)

/-- A nearly cubic orthorhombic cell: the edges differ by nine parts in a million. -/
noncomputable def nearCubic : Matrix (Fin 3) (Fin 3) ℝ :=
  Matrix.diagonal ![1, 1 + 9 / 10 ^ 6, (1 + 9 / 10 ^ 6) ^ 2]

theorem nearCubic_inv : nearCubic⁻¹ =
    Matrix.diagonal ![1, (1 + 9 / 10 ^ 6)⁻¹, ((1 + 9 / 10 ^ 6) ^ 2)⁻¹] := by
  apply Matrix.inv_eq_left_inv
  rw [nearCubic, Matrix.diagonal_mul_diagonal, ← Matrix.diagonal_one]
  congr 1
  ext i
  fin_cases i <;> simp <;> norm_num

theorem nearCubic_det : nearCubic.det ≠ 0 := by
  rw [nearCubic, Matrix.det_diagonal, Fin.prod_univ_three]
  simp
  norm_num

theorem nearCubic_entry (Q : Matrix (Fin 3) (Fin 3) ℝ) (i j : Fin 3) :
    (nearCubic⁻¹ * (Q * nearCubic)) i j =
      ![1, (1 + 9 / 10 ^ 6)⁻¹, ((1 + 9 / 10 ^ 6) ^ 2)⁻¹] i * Q i j *
        ![1, 1 + 9 / 10 ^ 6, (1 + 9 / 10 ^ 6) ^ 2] j := by
  rw [nearCubic_inv, nearCubic, Matrix.diagonal_mul, Matrix.mul_diagonal, mul_assoc]

theorem nearCubic_passes (Q : Matrix (Fin 3) (Fin 3) ℤ) (hQ : Q * Qᵀ = 1)
    (h : ∀ i j, Q i j = 0 ∨ |(![1, (1 + 9 / 10 ^ 6)⁻¹, ((1 + 9 / 10 ^ 6) ^ 2)⁻¹] i : ℝ) * (Q i j : ℝ) *
        ![1, 1 + 9 / 10 ^ 6, (1 + 9 / 10 ^ 6) ^ 2] j - (Q i j : ℝ)| ≤ 1 / 10 ^ 5 * |(Q i j : ℝ)| ∧
        |(Q i j : ℝ)| ≤ 1) :
    passes .code nearCubic (.int Q) = true := by
  simp only [passes, Bool.and_eq_true]
  refine ⟨inO3_of_ortho tolOK_code _ (by rw [← toR_transpose, ← toR_mul, hQ, toR_one]), ?_⟩
  apply eqTest_code_of_near
  intro i j
  refine ⟨Q i j, ?_⟩
  rw [nearCubic_entry]
  rcases h i j with h | ⟨h, h'⟩
  · simp [toR, h]
  · simp only [toR, Matrix.map_apply]
    constructor
    · exact lt_of_le_of_lt h (by nlinarith [abs_nonneg ((Q i j : ℤ) : ℝ)])
    · linarith

/-- six rotations that pass the test for the nearly cubic cell -/
theorem nearCubic_six : ∀ Q ∈ [(!![1, 0, 0; 0, 1, 0; 0, 0, 1] : Matrix (Fin 3) (Fin 3) ℤ),
    !![1, 0, 0; 0, -1, 0; 0, 0, -1], !![-1, 0, 0; 0, 1, 0; 0, 0, -1],
    !![-1, 0, 0; 0, -1, 0; 0, 0, 1], !![0, 1, 0; 1, 0, 0; 0, 0, -1],
    !![-1, 0, 0; 0, 0, 1; 0, 1, 0]], passes .code nearCubic (.int Q) = true := by
  intro Q hQ
  simp only [List.mem_cons, List.not_mem_nil, or_false] at hQ
  rcases hQ with rfl | rfl | rfl | rfl | rfl | rfl <;>
  · refine nearCubic_passes _ (by decide +kernel) ?_
    intro i j
    fin_cases i <;> fin_cases j <;>
      first
        | (left; simp; done)
        | (right; norm_num [abs_le])

/-- the rotations found for it are those of the cubic table that pass -/
theorem nearCubic_laue : Lat.laueGroup .code ⟨3, nearCubic⟩ =
    .ok (((cubicLaue.map NMat.int).filter (passes .code nearCubic)).map NMat.val) := by
  rw [laueGroup_three]
  simp only [Lat.select, filter_ok _ nearCubic_det]
  rw [if_neg]
  rw [List.length_map]
  intro h4
  have hsub : [NMat.int (!![1, 0, 0; 0, 1, 0; 0, 0, 1] : Matrix (Fin 3) (Fin 3) ℤ),
      .int !![1, 0, 0; 0, -1, 0; 0, 0, -1], .int !![-1, 0, 0; 0, 1, 0; 0, 0, -1],
      .int !![-1, 0, 0; 0, -1, 0; 0, 0, 1], .int !![0, 1, 0; 1, 0, 0; 0, 0, -1]].Sublist
      ((cubicLaue.map NMat.int).filter (passes .code nearCubic)) := by
    have h0 : [NMat.int (!![1, 0, 0; 0, 1, 0; 0, 0, 1] : Matrix (Fin 3) (Fin 3) ℤ),
        .int !![1, 0, 0; 0, -1, 0; 0, 0, -1], .int !![-1, 0, 0; 0, 1, 0; 0, 0, -1],
        .int !![-1, 0, 0; 0, -1, 0; 0, 0, 1], .int !![0, 1, 0; 1, 0, 0; 0, 0, -1]].filter
          (passes .code nearCubic) = _ :=
      List.filter_eq_self.mpr (by
        intro Q hQ
        simp only [List.mem_cons, List.not_mem_nil, or_false] at hQ
        rcases hQ with rfl | rfl | rfl | rfl | rfl <;> exact nearCubic_six _ (by simp))
    rw [← h0]
    apply List.Sublist.filter
    exact (List.take_sublist 5 (cubicLaue.map NMat.int))
  have := hsub.length_le
  simp at this
  omega

theorem nearCubic_mem : ∀ Q ∈ cubicLaue, (toR Q ∈
    ((cubicLaue.map NMat.int).filter (passes .code nearCubic)).map NMat.val ↔
      passes .code nearCubic (.int Q) = true) := by
  intro Q hQ
  simp only [List.mem_map, List.mem_filter]
  constructor
  · rintro ⟨_, ⟨⟨R, -, rfl⟩, hp⟩, h⟩
    have : R = Q := toR_injective h
    rw [← this]; exact hp
  · intro h
    exact ⟨_, ⟨⟨Q, hQ, rfl⟩, h⟩, rfl⟩

/-- C15 fails with the tolerances of the code: for a nearly cubic cell the accepted
rotations do not form a group (the cell edges are pairwise close along two pairs of axes but not
along the third). -/
theorem C15_tolerance_fails :
    ∃ g, Lat.laueGroup .code ⟨3, nearCubic⟩ = .ok g ∧ ∃ A ∈ g, ∃ B ∈ g, A * B ∉ g := by
  have hno : passes .code nearCubic (.int !![0, 0, 1; -1, 0, 0; 0, -1, 0]) = false := by
    simp only [passes, Bool.and_eq_false_iff]
    right
    simp only [eqTest, decide_eq_false_iff_not]
    intro hc
    have h1 := hc 0 2
    have he : (nearCubic⁻¹ * (toR !![0, 0, 1; -1, 0, 0; 0, -1, 0] * nearCubic)) 0 2
        = (1 + 9 / 10 ^ 6) ^ 2 := by
      rw [nearCubic_entry]; simp [toR]
    have hr : rintMat (nearCubic⁻¹ * (toR !![0, 0, 1; -1, 0, 0; 0, -1, 0] * nearCubic)) 0 2 = 1 := by
      rw [rintMat, he]
      apply roundEven_of_near
      norm_num [abs_lt]
    simp only [toR, Matrix.map_apply] at h1 hr he
    rw [hr, he] at h1
    norm_num [Tol.code, abs_le] at h1
  refine ⟨_, nearCubic_laue, toR !![0, 1, 0; 1, 0, 0; 0, 0, -1],
    (nearCubic_mem _ (by decide +kernel)).mpr (nearCubic_six _ (by simp)), toR !![-1, 0, 0; 0, 0, 1; 0, 1, 0],
    (nearCubic_mem _ (by decide +kernel)).mpr (nearCubic_six _ (by simp)), ?_⟩
  have e : (!![0, 1, 0; 1, 0, 0; 0, 0, -1] * !![-1, 0, 0; 0, 0, 1; 0, 1, 0]
      : Matrix (Fin 3) (Fin 3) ℤ) = !![0, 0, 1; -1, 0, 0; 0, -1, 0] := by decide +kernel
  rw [← toR_mul, e, nearCubic_mem _ (by decide +kernel), hno]
  simp

/-! ## C16 -/

/-- C16 in three dimensions: the point group is the Laue group followed by its negatives, it
is a group of symmetries of the lattice and has twice the order of the Laue group. -/
theorem C16_point_group_3d (t : Tol) (E : Matrix (Fin 3) (Fin 3) ℝ) (hE : E.det ≠ 0)
    (hr : Reliable t E candidates3) :
    ∃ g p, Lat.laueGroup t ⟨3, E⟩ = .ok g ∧ Lat.pointGroup t ⟨3, E⟩ = .ok p ∧
      p = g ++ g.map (fun Q => -Q) ∧ IsSymmetryGroup E p ∧ p.length = 2 * g.length := by
  obtain ⟨g, hg, hs, hd⟩ := C15_laue_group_3d t E hE hr
  refine ⟨g, g ++ g.map (fun Q => -Q), hg, ?_, rfl, ?_, ?_⟩
  · simp only [Lat.pointGroup, if_true]
    rw [hg]
  · have hmem : ∀ A, A ∈ g ++ g.map (fun Q => -Q) ↔ A ∈ g ∨ -A ∈ g := by
      intro A
      rw [List.mem_append, List.mem_map]
      refine or_congr Iff.rfl ⟨?_, ?_⟩
      · rintro ⟨Q, hQ, rfl⟩; rwa [neg_neg]
      · intro h; exact ⟨-A, h, neg_neg A⟩
    have hneg : ∀ Q ∈ g, -Q ∉ g := by
      intro Q hQ h
      have h1 := hd _ h
      rw [Matrix.det_neg, hd Q hQ] at h1
      norm_num at h1
    refine ⟨?_, ?_, ?_, ?_, ?_⟩
    · rw [List.nodup_append]
      refine ⟨hs.nodup, (List.nodup_map_iff neg_injective).mpr hs.nodup, ?_⟩
      rintro A hA B hB rfl
      obtain ⟨Q, hQ, h⟩ := List.mem_map.mp hB
      exact hneg Q hQ (h ▸ hA)
    · exact (hmem _).mpr (.inl hs.one)
    · intro A hA B hB
      rw [hmem] at *
      rcases hA with hA | hA <;> rcases hB with hB | hB
      · exact .inl (hs.mul _ hA _ hB)
      · right; have := hs.mul _ hA _ hB; rwa [Matrix.mul_neg] at this
      · right; have := hs.mul _ hA _ hB; rwa [Matrix.neg_mul] at this
      · left; have := hs.mul _ hA _ hB; rwa [Matrix.neg_mul, Matrix.mul_neg, neg_neg] at this
    · intro A hA
      rw [hmem] at hA
      rcases hA with hA | hA
      · obtain ⟨B, hB, h⟩ := hs.inv A hA
        exact ⟨B, (hmem B).mpr (.inl hB), h⟩
      · obtain ⟨B, hB, h⟩ := hs.inv _ hA
        exact ⟨-B, (hmem _).mpr (.inr (by rwa [neg_neg])), by rwa [Matrix.mul_neg, ← Matrix.neg_mul]⟩
    · intro A hA
      rw [hmem] at hA
      rcases hA with hA | hA
      · exact hs.sym A hA
      · have := inPointGroup_neg (hs.sym _ hA)
        rwa [neg_neg] at this
  · rw [List.length_append, List.length_map]; ring

/-- C16 in two dimensions, first part: the point group is a group of symmetries of the lattice.
Missing: that it contains the Laue group, which is false in general (`C16_2d_fails`). -/
theorem C16_point_group_2d_partial (t : Tol) (E : Matrix (Fin 2) (Fin 2) ℝ) (hE : E.det ≠ 0)
    (hr : Reliable t E candidates2) :
    ∃ p, Lat.pointGroup t ⟨2, E⟩ = .ok p ∧ IsSymmetryGroup E p := by
  rw [pointGroup_two]
  obtain ⟨T, hT, h⟩ := select_ok t hE (squareExt.map .int) hex2dExt 4
  refine ⟨_, h, ?_⟩
  rcases hT with rfl | rfl
  · refine filter_symmetryGroup _ _ (intTable_group squareExt_group) (intTable_nodup squareExt_nodup)
      (passes_reliable hE (hr.mono ?_))
    intro Q hQ
    rw [map_int_val] at hQ
    exact List.mem_append_left _ hQ
  · exact filter_symmetryGroup _ _ hex2dExt_group hex2dExt_nodup
      (passes_reliable hE (hr.mono fun Q hQ => List.mem_append_right _ hQ))

open Classical in
theorem filter_map_val {E : Matrix (Fin n) (Fin n) ℝ} {G : List (NMat n)} {P : NMat n → Bool}
    (hP : ∀ Q ∈ G, P Q = true ↔ InPointGroup E Q.val) :
    (G.filter P).map NMat.val = (G.map NMat.val).filter (fun Q => decide (InPointGroup E Q)) := by
  rw [List.filter_map]
  congr 1
  apply List.filter_congr
  intro Q hQ
  have := hP Q hQ
  by_cases h : InPointGroup E Q.val
  · simp [h, this.mpr h]
  · simp only [Function.comp, h, decide_false]
    exact Bool.eq_false_iff.mpr (fun hc => h (this.mp hc))

open Classical in
theorem select_sym {t : Tol} {E : Matrix (Fin n) (Fin n) ℝ} (hE : E.det ≠ 0) {G H : List (NMat n)}
    (hG : Reliable t E (G.map NMat.val)) (hH : Reliable t E (H.map NMat.val)) (k : ℕ) :
    Lat.select t ⟨n, E⟩ G H k =
      .ok (if ((G.map NMat.val).filter (fun Q => decide (InPointGroup E Q))).length = k ∧
            k < ((H.map NMat.val).filter (fun Q => decide (InPointGroup E Q))).length then
          (H.map NMat.val).filter (fun Q => decide (InPointGroup E Q))
        else (G.map NMat.val).filter (fun Q => decide (InPointGroup E Q))) := by
  simp only [Lat.select, filter_ok t hE, filter_map_val (passes_reliable hE hG),
    filter_map_val (passes_reliable hE hH)]
  generalize (G.map NMat.val).filter (fun Q => decide (InPointGroup E Q)) = a
  generalize (H.map NMat.val).filter (fun Q => decide (InPointGroup E Q)) = b
  by_cases h : a.length = k
  · subst h
    by_cases h' : a.length < b.length <;> simp [h']
  · simp [h]

theorem filter_all {α : Type} {l : List α} {p : α → Bool} (h : ∀ a ∈ l, p a = true) :
    l.filter p = l := List.filter_eq_self.mpr h

theorem toR_neg (A : Matrix (Fin n) (Fin n) ℤ) : toR (-A) = -toR A := by
  ext i j; simp [toR]

/-- C16 in two dimensions, second part: if the reflection in the first coordinate axis is a symmetry of
the lattice (as for all the non-oblique two-dimensional Bravais lattices of the package), the
point group contains the Laue group. -/
theorem C16_contains_laue_2d_partial (t : Tol) (E : Matrix (Fin 2) (Fin 2) ℝ) (hE : E.det ≠ 0)
    (hr : Reliable t E candidates2) (hm : InPointGroup E (toR !![1, 0; 0, -1])) :
    ∃ g p, Lat.laueGroup t ⟨2, E⟩ = .ok g ∧ Lat.pointGroup t ⟨2, E⟩ = .ok p ∧ ∀ Q ∈ g, Q ∈ p := by
  classical
  have hrs : Reliable t E ((squareRot.map NMat.int).map NMat.val) := hr.mono (by
    intro Q hQ
    rw [map_int_val] at hQ
    obtain ⟨R, hR, rfl⟩ := List.mem_map.mp hQ
    exact List.mem_append_left _ (List.mem_map.mpr ⟨R, squareRot_sub R hR, rfl⟩))
  have hre : Reliable t E ((squareExt.map NMat.int).map NMat.val) := hr.mono (by
    intro Q hQ
    rw [map_int_val] at hQ
    exact List.mem_append_left _ hQ)
  have hrh : Reliable t E (hex2dRot.map NMat.val) := hr.mono (by
    intro Q hQ
    obtain ⟨R, hR, rfl⟩ := List.mem_map.mp hQ
    exact List.mem_append_right _ (List.mem_map.mpr ⟨R, hex2dRot_sub R hR, rfl⟩))
  have hrhe : Reliable t E (hex2dExt.map NMat.val) := hr.mono (fun Q hQ => List.mem_append_right _ hQ)
  refine ⟨_, _, by rw [laueGroup_two, select_sym hE hrs hrh], by
    rw [pointGroup_two, select_sym hE hre hrhe], ?_⟩
  -- the members of the square table
  have h1 : InPointGroup E (toR !![1, 0; 0, 1]) := by
    have := inPointGroup_one E
    rwa [← toR_one, show (1 : Matrix (Fin 2) (Fin 2) ℤ) = !![1, 0; 0, 1] by decide +kernel] at this
  have hn1 : InPointGroup E (toR !![-1, 0; 0, -1]) := by
    have := inPointGroup_neg h1
    rwa [← toR_neg, show -(!![1, 0; 0, 1] : Matrix (Fin 2) (Fin 2) ℤ) = !![-1, 0; 0, -1] by
      decide +kernel] at this
  have hmul : ∀ A B C : Matrix (Fin 2) (Fin 2) ℤ, InPointGroup E (toR A) → InPointGroup E (toR B) →
      A * B = C → InPointGroup E (toR C) := by
    rintro A B _ hA hB rfl
    rw [toR_mul]; exact inPointGroup_mul hA hB
  have hm' : InPointGroup E (toR !![-1, 0; 0, 1]) := hmul _ _ _ hn1 hm (by decide +kernel)
  have hmulH : ∀ A B C : Matrix (Fin 2) (Fin 2) ℤ, InPointGroup E (conjB hexB2 A) →
      InPointGroup E (conjB hexB2 B) → A * B = C → InPointGroup E (conjB hexB2 C) := by
    rintro A B _ hA hB rfl
    rw [conjB_mul hexB2_det]; exact inPointGroup_mul hA hB
  have e1 : toR !![1, 0; 0, 1] = conjB hexB2 !![1, 0; 0, 1] := by
    rw [show (!![1, 0; 0, 1] : Matrix (Fin 2) (Fin 2) ℤ) = 1 by decide +kernel, toR_one,
      conjB_one hexB2_det]
  have en1 : toR !![-1, 0; 0, -1] = conjB hexB2 !![-1, 0; 0, -1] := by
    have : conjB hexB2 (-1) = -conjB hexB2 1 := by
      rw [conjB, conjB, toR_neg, Matrix.mul_neg, Matrix.neg_mul]
    rw [show (!![-1, 0; 0, -1] : Matrix (Fin 2) (Fin 2) ℤ) = -1 by decide +kernel, this, toR_neg,
      toR_one, conjB_one hexB2_det]
  have em : toR !![1, 0; 0, -1] = conjB hexB2 !![1, -1; 0, -1] := by
    apply eq_conjB hexB2_det
    ext i j
    fin_cases i <;> fin_cases j <;>
      simp [hexB2, toR, Matrix.mul_apply, Fin.sum_univ_two] <;> norm_num
  rw [map_int_val, map_int_val, hex2dRot_eq, hex2dExt_eq]
  by_cases hR : InPointGroup E (toR !![0, -1; 1, 0])
  · -- the quarter turn is a symmetry: both square tables are kept whole
    have hall : ∀ Q ∈ squareExt, InPointGroup E (toR Q) := by
      intro Q hQ
      simp only [squareExt, List.mem_cons, List.not_mem_nil, or_false] at hQ
      have hR3 := hmul _ _ !![0, 1; -1, 0] hn1 hR (by decide +kernel)
      rcases hQ with rfl | rfl | rfl | rfl | rfl | rfl | rfl | rfl
      · exact h1
      · exact hR
      · exact hR3
      · exact hn1
      · exact hm
      · exact hm'
      · exact hmul _ _ _ hR hm (by decide +kernel)
      · exact hmul _ _ _ hR3 hm (by decide +kernel)
    have f1 : (squareRot.map toR).filter (fun Q => decide (InPointGroup E Q)) = squareRot.map toR := by
      apply filter_all
      intro A hA
      obtain ⟨Q, hQ, rfl⟩ := List.mem_map.mp hA
      exact decide_eq_true (hall Q (squareRot_sub Q hQ))
    have f2 : (squareExt.map toR).filter (fun Q => decide (InPointGroup E Q)) = squareExt.map toR := by
      apply filter_all
      intro A hA
      obtain ⟨Q, hQ, rfl⟩ := List.mem_map.mp hA
      exact decide_eq_true (hall Q hQ)
    rw [f1, f2, if_neg, if_neg]
    · intro Q hQ
      obtain ⟨R, hR, rfl⟩ := List.mem_map.mp hQ
      exact List.mem_map.mpr ⟨R, squareRot_sub R hR, rfl⟩
    · rintro ⟨h, -⟩; simp [squareExt] at h
    · rintro ⟨h, -⟩; simp [squareRot, squareExt] at h
  · have hR3 : ¬ InPointGroup E (toR !![0, 1; -1, 0]) :=
      fun h => hR (hmul _ _ _ hn1 h (by decide +kernel))
    have hd1 : ¬ InPointGroup E (toR !![0, 1; 1, 0]) :=
      fun h => hR (hmul _ _ _ h hm (by decide +kernel))
    have hd2 : ¬ InPointGroup E (toR !![0, -1; -1, 0]) :=
      fun h => hR3 (hmul _ _ _ h hm (by decide +kernel))
    have f1 : (squareRot.map toR).filter (fun Q => decide (InPointGroup E Q))
        = [toR !![1, 0; 0, 1], toR !![-1, 0; 0, -1]] := by
      simp [squareRot, squareExt, h1, hn1, hR, hR3]
    have f2 : (squareExt.map toR).filter (fun Q => decide (InPointGroup E Q))
        = [toR !![1, 0; 0, 1], toR !![-1, 0; 0, -1], toR !![1, 0; 0, -1], toR !![-1, 0; 0, 1]] := by
      simp [squareExt, h1, hn1, hR, hR3, hd1, hd2, hm, hm']
    rw [f1, f2]
    have c1 := e1 ▸ h1
    have cn1 := en1 ▸ hn1
    have cm := em ▸ hm
    by_cases hh : InPointGroup E (conjB hexB2 !![1, -1; 1, 0])
    · have hall : ∀ Q ∈ hex2dInt, InPointGroup E (conjB hexB2 Q) := by
        have hh2 := hmulH _ _ !![0, -1; 1, -1] hh hh (by decide +kernel)
        have hh4 := hmulH _ _ !![0, 1; -1, 1] cn1 hh2 (by decide +kernel)
        have hh5 := hmulH _ _ !![-1, 1; -1, 0] cn1 hh (by decide +kernel)
        intro Q hQ
        simp only [hex2dInt, List.mem_cons, List.not_mem_nil, or_false] at hQ
        rcases hQ with rfl | rfl | rfl | rfl | rfl | rfl | rfl | rfl | rfl | rfl | rfl | rfl
        · exact c1
        · exact hh
        · exact hh2
        · exact cn1
        · exact hh4
        · exact hh5
        · exact cm
        · exact hmulH _ _ _ hh4 cm (by decide +kernel)
        · exact hmulH _ _ _ hh cm (by decide +kernel)
        · exact hmulH _ _ _ cn1 cm (by decide +kernel)
        · exact hmulH _ _ _ hh5 cm (by decide +kernel)
        · exact hmulH _ _ _ hh2 cm (by decide +kernel)
      have f3 : ((hex2dInt.take 6).map (conjB hexB2)).filter (fun Q => decide (InPointGroup E Q))
          = (hex2dInt.take 6).map (conjB hexB2) := by
        apply filter_all
        intro A hA
        obtain ⟨Q, hQ, rfl⟩ := List.mem_map.mp hA
        exact decide_eq_true (hall Q (List.mem_of_mem_take hQ))
      have f4 : (hex2dInt.map (conjB hexB2)).filter (fun Q => decide (InPointGroup E Q))
          = hex2dInt.map (conjB hexB2) := by
        apply filter_all
        intro A hA
        obtain ⟨Q, hQ, rfl⟩ := List.mem_map.mp hA
        exact decide_eq_true (hall Q hQ)
      rw [f3, f4, if_pos (by simp [hex2dInt]), if_pos (by simp [hex2dInt])]
      intro Q hQ
      obtain ⟨R, hR, rfl⟩ := List.mem_map.mp hQ
      exact List.mem_map.mpr ⟨R, List.mem_of_mem_take hR, rfl⟩
    · have hh4 : ¬ InPointGroup E (conjB hexB2 !![-1, 1; -1, 0]) :=
        fun h => hh (hmulH _ _ _ cn1 h (by decide +kernel))
      have hh2 : ¬ InPointGroup E (conjB hexB2 !![0, -1; 1, -1]) :=
        fun h => hh4 (hmulH _ _ _ h h (by decide +kernel))
      have hh5 : ¬ InPointGroup E (conjB hexB2 !![0, 1; -1, 1]) :=
        fun h => hh2 (hmulH _ _ _ cn1 h (by decide +kernel))
      have f3 : ((hex2dInt.take 6).map (conjB hexB2)).filter (fun Q => decide (InPointGroup E Q))
          = [conjB hexB2 !![1, 0; 0, 1], conjB hexB2 !![-1, 0; 0, -1]] := by
        simp [hex2dInt, c1, cn1, hh, hh2, hh4, hh5]
      rw [f3, if_neg (by simp)]
      intro Q hQ
      simp only [List.mem_cons, List.not_mem_nil, or_false] at hQ
      split_ifs
      · rw [List.mem_filter, decide_eq_true_eq]
        rcases hQ with rfl | rfl
        · exact ⟨List.mem_map.mpr ⟨!![1, 0; 0, 1], by simp [hex2dInt], e1.symm⟩, h1⟩
        · exact ⟨List.mem_map.mpr ⟨!![-1, 0; 0, -1], by simp [hex2dInt], en1.symm⟩, hn1⟩
      · rcases hQ with rfl | rfl <;> simp

/-- A hexagonal lattice, turned by the angle with cosine `4/5`. -/
noncomputable def turnedHex : Matrix (Fin 2) (Fin 2) ℝ := !![4 / 5, -3 / 5; 3 / 5, 4 / 5] * hexB2

theorem turnedHex_det : turnedHex.det = hexS := by
  rw [turnedHex, Matrix.det_mul, Matrix.det_fin_two, hexB2, Matrix.det_fin_two]
  simp
  ring

theorem turnedHex_entry (Q : Matrix (Fin 2) (Fin 2) ℝ) :
    (turnedHex⁻¹ * (Q * turnedHex)) 1 0 =
      (4 / 5 * (Q 1 0 * (4 / 5) + Q 1 1 * (3 / 5)) - 3 / 5 * (Q 0 0 * (4 / 5) + Q 0 1 * (3 / 5))) / hexS := by
  rw [Matrix.inv_def, turnedHex_det, Matrix.adjugate_fin_two, Ring.inverse_eq_inv']
  simp [turnedHex, hexB2, Matrix.mul_apply, Fin.sum_univ_two]
  field_simp
  ring

theorem hexS_bounds : 866 / 1000 < hexS ∧ hexS < 867 / 1000 := by
  have h1 := hexS_sq
  have h2 := hexS_pos
  constructor <;> nlinarith

/-- C16 fails in two dimensions: for a hexagonal lattice turned against the coordinate axes the Laue
group has six elements but the point group has only two. -/
theorem C16_2d_fails (t : Tol) (ht : t = .code ∨ t = .exact) :
    turnedHex.det ≠ 0 ∧ ∃ g p, Lat.laueGroup t ⟨2, turnedHex⟩ = .ok g ∧
      Lat.pointGroup t ⟨2, turnedHex⟩ = .ok p ∧ g.length = 6 ∧ p.length = 2 ∧ ¬ ∀ Q ∈ g, Q ∈ p := by
  have htol : TolOK t := by rcases ht with rfl | rfl; exacts [tolOK_code, tolOK_exact]
  have hE : turnedHex.det ≠ 0 := by rw [turnedHex_det]; exact hexS_pos.ne'
  obtain ⟨s1, s2⟩ := hexS_bounds
  have spos := hexS_pos
  have h1 : passes t turnedHex (.int !![1, 0; 0, 1]) = true := by
    apply passes_of_sym htol hE
    have := inPointGroup_one turnedHex
    rwa [← toR_one, show (1 : Matrix (Fin 2) (Fin 2) ℤ) = !![1, 0; 0, 1] by decide +kernel] at this
  have hn1 : passes t turnedHex (.int !![-1, 0; 0, -1]) = true := by
    apply passes_of_sym htol hE
    have := inPointGroup_neg (inPointGroup_one turnedHex)
    rwa [← toR_one, ← toR_neg, show -(1 : Matrix (Fin 2) (Fin 2) ℤ) = !![-1, 0; 0, -1] by
      decide +kernel] at this
  have far : ∀ (Q : Matrix (Fin 2) (Fin 2) ℤ) (k : ℤ), |(k : ℝ)| ≤ 5 →
      (k + 1 / 100 : ℝ) ≤ (4 / 5 * ((Q 1 0 : ℝ) * (4 / 5) + (Q 1 1 : ℝ) * (3 / 5))
        - 3 / 5 * ((Q 0 0 : ℝ) * (4 / 5) + (Q 0 1 : ℝ) * (3 / 5))) / hexS →
      (4 / 5 * ((Q 1 0 : ℝ) * (4 / 5) + (Q 1 1 : ℝ) * (3 / 5))
        - 3 / 5 * ((Q 0 0 : ℝ) * (4 / 5) + (Q 0 1 : ℝ) * (3 / 5))) / hexS ≤ (k + 99 / 100 : ℝ) →
      passes t turnedHex (.int Q) = false := by
    intro Q k hk ha hb
    simp only [passes, Bool.and_eq_false_iff]
    right
    apply eqTest_of_far ht (i := 1) (j := 0)
    rw [turnedHex_entry]
    exact far_of_between k hk ha hb
  have q1 : passes t turnedHex (.int !![0, -1; 1, 0]) = false := by
    apply far _ 1 (by norm_num) 
    · rw [le_div_iff₀ spos]; simp; linarith
    · rw [div_le_iff₀ spos]; simp; linarith
  have q3 : passes t turnedHex (.int !![0, 1; -1, 0]) = false := by
    apply far _ (-2) (by norm_num) 
    · rw [le_div_iff₀ spos]; simp; linarith
    · rw [div_le_iff₀ spos]; simp; linarith
  have m1 : passes t turnedHex (.int !![1, 0; 0, -1]) = false := by
    apply far _ (-2) (by norm_num) 
    · rw [le_div_iff₀ spos]; simp; linarith
    · rw [div_le_iff₀ spos]; simp; linarith
  have m2 : passes t turnedHex (.int !![-1, 0; 0, 1]) = false := by
    apply far _ 1 (by norm_num) 
    · rw [le_div_iff₀ spos]; simp; linarith
    · rw [div_le_iff₀ spos]; simp; linarith
  have d1 : passes t turnedHex (.int !![0, 1; 1, 0]) = false := by
    apply far _ 0 (by norm_num) 
    · rw [le_div_iff₀ spos]; simp; linarith
    · rw [div_le_iff₀ spos]; simp; linarith
  have d2 : passes t turnedHex (.int !![0, -1; -1, 0]) = false := by
    apply far _ (-1) (by norm_num) 
    · rw [le_div_iff₀ spos]; simp; linarith
    · rw [div_le_iff₀ spos]; simp; linarith
  have hex : ∀ Q ∈ hex2dRot, passes t turnedHex Q = true := by
    intro Q hQ
    apply passes_of_sym htol hE
    have hQ' : Q.val ∈ (hex2dInt.take 6).map (conjB hexB2) := by
      rw [← hex2dRot_eq]; exact List.mem_map.mpr ⟨Q, hQ, rfl⟩
    have horth : Q.val * Q.valᵀ = 1 ∧ Q.val 0 0 = Q.val 1 1 ∧ Q.val 0 1 = -Q.val 1 0 := by
      have hs := hexS_sq
      simp only [hex2dRot, hex2dExt, List.take, List.mem_cons, List.not_mem_nil, or_false] at hQ
      rcases hQ with rfl | rfl | rfl | rfl | rfl | rfl <;>
      · refine ⟨?_, ?_, ?_⟩
        · ext i j
          fin_cases i <;> fin_cases j <;>
            simp [NMat.val, Matrix.mul_apply, Fin.sum_univ_two, hexC_eq] <;> nlinarith
        · simp [NMat.val]
        · simp [NMat.val]
    obtain ⟨M, -, hM⟩ := List.mem_map.mp hQ'
    rw [inPointGroup_iff hE]
    refine ⟨horth.1, (isIntegral_iff _).mpr ⟨M, ?_⟩⟩
    -- a rotation commutes with the turn
    have hcomm : Q.val * !![4 / 5, -3 / 5; 3 / 5, 4 / 5] = !![4 / 5, -3 / 5; 3 / 5, 4 / 5] * Q.val := by
      obtain ⟨-, ha, hb⟩ := horth
      ext i j
      fin_cases i <;> fin_cases j <;>
        simp [Matrix.mul_apply, Fin.sum_univ_two, ha, hb] <;> ring
    have hB : Q.val * hexB2 = hexB2 * toR M := by
      rw [← hM, conjB, Matrix.mul_assoc, Matrix.nonsing_inv_mul _ (isUnit_det_of_ne hexB2_det),
        Matrix.mul_one]
    have : Q.val * turnedHex = turnedHex * toR M := by
      rw [turnedHex, ← Matrix.mul_assoc, hcomm, Matrix.mul_assoc, hB, ← Matrix.mul_assoc]
    rw [this, ← Matrix.mul_assoc, Matrix.nonsing_inv_mul _ (isUnit_det_of_ne hE), Matrix.one_mul]
  have f1 : ((squareRot.map NMat.int).filter (passes t turnedHex)).map NMat.val
      = [toR !![1, 0; 0, 1], toR !![-1, 0; 0, -1]] := by
    simp [squareRot, squareExt, h1, hn1, q1, q3, NMat.val, toR]
  have f2 : ((squareExt.map NMat.int).filter (passes t turnedHex)).map NMat.val
      = [toR !![1, 0; 0, 1], toR !![-1, 0; 0, -1]] := by
    simp [squareExt, h1, hn1, q1, q3, m1, m2, d1, d2, NMat.val, toR]
  have f3 : (hex2dRot.filter (passes t turnedHex)).map NMat.val = hex2dRot.map NMat.val := by
    rw [filter_all hex]
  refine ⟨hE, hex2dRot.map NMat.val, [toR !![1, 0; 0, 1], toR !![-1, 0; 0, -1]], ?_, ?_, ?_, rfl, ?_⟩
  · rw [laueGroup_two]
    simp only [Lat.select, filter_ok t hE, f1, f3]
    simp [hex2dRot, hex2dExt]
  · rw [pointGroup_two]
    simp only [Lat.select, filter_ok t hE, f2]
    simp
  · simp [hex2dRot, hex2dExt]
  · intro h
    have := h (NMat.val (.float !![hexC, -hexS; hexS, hexC])) (by simp [hex2dRot, hex2dExt])
    simp only [List.mem_cons, List.not_mem_nil, or_false] at this
    rcases this with h | h
    · have := congrFun (congrFun h 0) 0
      norm_num [NMat.val, toR, hexC_eq] at this
    · have := congrFun (congrFun h 0) 0
      norm_num [NMat.val, toR, hexC_eq] at this

-- the hypothesis of the partial theorem holds for the square lattice
example : InPointGroup (1 : Matrix (Fin 2) (Fin 2) ℝ) (toR !![1, 0; 0, -1]) :=
  inPointGroup_unit (by decide +kernel)

/-! ## C17 -/

theorem conj_spec {E Q : Matrix (Fin n) (Fin n) ℝ} (hE : E.det ≠ 0) (h : InPointGroup E Q) :
    E * toR (rintMat (E⁻¹ * (Q * E))) = Q * E := by
  obtain ⟨M, hM⟩ := (isIntegral_iff _).mp ((inPointGroup_iff hE).mp h).2
  rw [hM, rintMat_toR, ← hM, ← Matrix.mul_assoc, Matrix.mul_nonsing_inv _ (isUnit_det_of_ne hE),
    Matrix.one_mul]

theorem conj_unique {E : Matrix (Fin n) (Fin n) ℝ} (hE : E.det ≠ 0) {M N : Matrix (Fin n) (Fin n) ℤ}
    (h : E * toR M = E * toR N) : M = N := by
  apply toR_injective
  have := congrArg (fun X => E⁻¹ * X) h
  simpa only [← Matrix.mul_assoc, Matrix.nonsing_inv_mul _ (isUnit_det_of_ne hE),
    Matrix.one_mul] using this

theorem conj_det {E Q : Matrix (Fin n) (Fin n) ℝ} (hE : E.det ≠ 0) {M : Matrix (Fin n) (Fin n) ℤ}
    (h : E * toR M = Q * E) : (M.det : ℝ) = Q.det := by
  have := congrArg Matrix.det h
  rw [Matrix.det_mul, Matrix.det_mul, toR_det, mul_comm] at this
  exact mul_right_cancel₀ hE this

theorem conj_list {E : Matrix (Fin n) (Fin n) ℝ} (hE : E.det ≠ 0)
    {g : List (Matrix (Fin n) (Fin n) ℝ)} (hg : IsSymmetryGroup E g) :
    List.Forall₂ (fun Q M => E * toR M = Q * E) g (g.map (Lat.conj ⟨n, E⟩)) ∧
      (g.map (Lat.conj ⟨n, E⟩)).Nodup ∧ IsMatGroup (g.map (Lat.conj ⟨n, E⟩)) := by
  have hs : ∀ Q ∈ g, E * toR (Lat.conj ⟨n, E⟩ Q) = Q * E := fun Q hQ => conj_spec hE (hg.sym Q hQ)
  have hcancel : ∀ A B : Matrix (Fin n) (Fin n) ℝ, A * E = B * E → A = B := by
    intro A B h
    have := congrArg (fun X => X * E⁻¹) h
    simpa only [Matrix.mul_assoc, Matrix.mul_nonsing_inv _ (isUnit_det_of_ne hE),
      Matrix.mul_one] using this
  have hone : Lat.conj ⟨n, E⟩ 1 = 1 := by
    apply conj_unique hE
    rw [hs 1 hg.one, toR_one, Matrix.one_mul, Matrix.mul_one]
  have hmul : ∀ A ∈ g, ∀ B ∈ g, Lat.conj ⟨n, E⟩ A * Lat.conj ⟨n, E⟩ B = Lat.conj ⟨n, E⟩ (A * B) := by
    intro A hA B hB
    apply conj_unique hE
    rw [hs _ (hg.mul A hA B hB), toR_mul, ← Matrix.mul_assoc, hs A hA, Matrix.mul_assoc, hs B hB,
      Matrix.mul_assoc]
  refine ⟨?_, ?_, ?_⟩
  · rw [List.forall₂_map_right_iff]
    exact List.forall₂_same.mpr hs
  · apply List.Nodup.map_on _ hg.nodup
    intro A hA B hB h
    apply hcancel
    rw [← hs A hA, ← hs B hB, h]
  · refine ⟨?_, ?_, ?_⟩
    · exact List.mem_map.mpr ⟨1, hg.one, hone⟩
    · intro A hA B hB
      obtain ⟨a, ha, rfl⟩ := List.mem_map.mp hA
      obtain ⟨b, hb, rfl⟩ := List.mem_map.mp hB
      exact List.mem_map.mpr ⟨a * b, hg.mul a ha b hb, (hmul a ha b hb).symm⟩
    · intro A hA
      obtain ⟨a, ha, rfl⟩ := List.mem_map.mp hA
      obtain ⟨b, hb, h⟩ := hg.inv a ha
      exact ⟨_, List.mem_map.mpr ⟨b, hb, rfl⟩, by rw [hmul a ha b hb, h, hone]⟩

/-- C17 for `special_lattice_group` in three dimensions: its members are, one for one, the integer
matrices `M` with `E M = Q E` for `Q` in the Laue group; they have determinant 1 and form a group. -/
theorem C17_special_lattice_group_3d (t : Tol) (E : Matrix (Fin 3) (Fin 3) ℝ) (hE : E.det ≠ 0)
    (hr : Reliable t E candidates3) :
    ∃ g ms, Lat.laueGroup t ⟨3, E⟩ = .ok g ∧ Lat.specialLatticeGroup t ⟨3, E⟩ = .ok ms ∧
      List.Forall₂ (fun Q M => E * toR M = Q * E) g ms ∧ (∀ M ∈ ms, M.det = 1) ∧
      ms.Nodup ∧ IsMatGroup ms := by
  obtain ⟨g, hg, hs, hd⟩ := C15_laue_group_3d t E hE hr
  obtain ⟨h1, h2, h3⟩ := conj_list hE hs
  refine ⟨g, _, hg, by simp only [Lat.specialLatticeGroup, hg], h1, ?_, h2, h3⟩
  intro M hM
  obtain ⟨Q, hQ, rfl⟩ := List.mem_map.mp hM
  have := conj_det hE (conj_spec hE (hs.sym Q hQ))
  rw [hd Q hQ] at this
  exact_mod_cast this

/-- C17 for `special_lattice_group` in two dimensions. -/
theorem C17_special_lattice_group_2d (t : Tol) (E : Matrix (Fin 2) (Fin 2) ℝ) (hE : E.det ≠ 0)
    (hr : Reliable t E candidates2) :
    ∃ g ms, Lat.laueGroup t ⟨2, E⟩ = .ok g ∧ Lat.specialLatticeGroup t ⟨2, E⟩ = .ok ms ∧
      List.Forall₂ (fun Q M => E * toR M = Q * E) g ms ∧ (∀ M ∈ ms, M.det = 1) ∧
      ms.Nodup ∧ IsMatGroup ms := by
  obtain ⟨g, hg, hs, hd⟩ := C15_laue_group_2d t E hE hr
  obtain ⟨h1, h2, h3⟩ := conj_list hE hs
  refine ⟨g, _, hg, by simp only [Lat.specialLatticeGroup, hg], h1, ?_, h2, h3⟩
  intro M hM
  obtain ⟨Q, hQ, rfl⟩ := List.mem_map.mp hM
  have := conj_det hE (conj_spec hE (hs.sym Q hQ))
  rw [hd Q hQ] at this
  exact_mod_cast this

theorem conj_det_pm {E : Matrix (Fin n) (Fin n) ℝ} (hE : E.det ≠ 0)
    {g : List (Matrix (Fin n) (Fin n) ℝ)} (hg : IsSymmetryGroup E g) :
    ∀ M ∈ g.map (Lat.conj ⟨n, E⟩), M.det = 1 ∨ M.det = -1 := by
  intro M hM
  obtain ⟨Q, hQ, rfl⟩ := List.mem_map.mp hM
  have h := conj_det hE (conj_spec hE (hg.sym Q hQ))
  have h2 := det_sq_of_ortho (hg.sym Q hQ).1
  rw [← h] at h2
  exact mul_self_eq_one_iff.mp (by exact_mod_cast h2)

/-- C17 for `lattice_group` in three dimensions. -/
theorem C17_lattice_group_3d (t : Tol) (E : Matrix (Fin 3) (Fin 3) ℝ) (hE : E.det ≠ 0)
    (hr : Reliable t E candidates3) :
    ∃ g ms, Lat.pointGroup t ⟨3, E⟩ = .ok g ∧ Lat.latticeGroup t ⟨3, E⟩ = .ok ms ∧
      List.Forall₂ (fun Q M => E * toR M = Q * E) g ms ∧ (∀ M ∈ ms, M.det = 1 ∨ M.det = -1) ∧
      ms.Nodup ∧ IsMatGroup ms := by
  obtain ⟨_, g, -, hg, -, hs, -⟩ := C16_point_group_3d t E hE hr
  obtain ⟨h1, h2, h3⟩ := conj_list hE hs
  exact ⟨g, _, hg, by simp only [Lat.latticeGroup, hg], h1, conj_det_pm hE hs, h2, h3⟩

/-- C17 for `lattice_group` in two dimensions. -/
theorem C17_lattice_group_2d (t : Tol) (E : Matrix (Fin 2) (Fin 2) ℝ) (hE : E.det ≠ 0)
    (hr : Reliable t E candidates2) :
    ∃ g ms, Lat.pointGroup t ⟨2, E⟩ = .ok g ∧ Lat.latticeGroup t ⟨2, E⟩ = .ok ms ∧
      List.Forall₂ (fun Q M => E * toR M = Q * E) g ms ∧ (∀ M ∈ ms, M.det = 1 ∨ M.det = -1) ∧
      ms.Nodup ∧ IsMatGroup ms := by
  obtain ⟨g, hg, hs⟩ := C16_point_group_2d_partial t E hE hr
  obtain ⟨h1, h2, h3⟩ := conj_list hE hs
  exact ⟨g, _, hg, by simp only [Lat.latticeGroup, hg], h1, conj_det_pm hE hs, h2, h3⟩

/-- C17 fails with the tolerances of the code: for a nearly cubic cell `special_lattice_group` contains a
matrix that no orthogonal transformation induces. -/
theorem C17_tolerance_fails :
    ∃ ms, Lat.specialLatticeGroup .code ⟨3, nearCubic⟩ = .ok ms ∧
      ∃ M ∈ ms, ¬ ∃ Q : Matrix (Fin 3) (Fin 3) ℝ, Qᵀ * Q = 1 ∧ nearCubic * toR M = Q * nearCubic := by
  refine ⟨_, by simp only [Lat.specialLatticeGroup, nearCubic_laue]; rfl, _, List.mem_map_of_mem
    ((nearCubic_mem !![0, 1, 0; 1, 0, 0; 0, 0, -1] (by decide +kernel)).mpr (nearCubic_six _ (by simp))), ?_⟩
  have hc : Lat.conj ⟨3, nearCubic⟩ (toR !![0, 1, 0; 1, 0, 0; 0, 0, -1]) = !![0, 1, 0; 1, 0, 0; 0, 0, -1] := by
    ext i j
    change rintMat (nearCubic⁻¹ * (toR _ * nearCubic)) i j = _
    rw [rintMat, nearCubic_entry]
    apply roundEven_of_near
    fin_cases i <;> fin_cases j <;> norm_num [toR, abs_lt]
  rw [hc]
  rintro ⟨Q, hQ, h⟩
  have h1 : ∀ i j, (nearCubic * toR !![0, 1, 0; 1, 0, 0; 0, 0, -1]) i j = (Q * nearCubic) i j := fun i j => by
    rw [h]
  have e := h1 1 0
  have e' := h1 0 0
  have e'' := h1 2 0
  simp [nearCubic, toR, Matrix.mul_apply, Matrix.diagonal, Fin.sum_univ_three] at e e' e''
  have := congrFun (congrFun hQ 0) 0
  simp [Matrix.mul_apply, Fin.sum_univ_three, ← e, ← e', ← e''] at this
  norm_num at this

/-! ## C18 -/

/-- C18: the deprecated accessors of `Lattice`, except `getlatticegroup`, return what their replacements
return.  Missing: `getlatticegroup` (`C18_getlatticegroup_fails`) and the accessors of `BravaisLattice`
(`C18_toPrimitive_fails`, `C18_toConventional_fails`). -/
theorem C18_lattice_accessors_partial (t : Tol) (L : Lat) :
    L.getbase = L.base ∧ L.getLauegroup t = L.laueGroup t ∧ L.getpointgroup t = L.pointGroup t ∧
      L.getspeciallatticegroup t = L.specialLatticeGroup t := ⟨rfl, rfl, rfl, rfl⟩

/-- C18 fails for `getlatticegroup`: for every three-dimensional lattice it returns half as many elements
as `lattice_group`, the method named in its warning. -/
theorem C18_getlatticegroup_fails (t : Tol) (ht : TolOK t) (E : Matrix (Fin 3) (Fin 3) ℝ)
    (hE : E.det ≠ 0) :
    ∃ a b, Lat.getlatticegroup t ⟨3, E⟩ = .ok a ∧ Lat.latticeGroup t ⟨3, E⟩ = .ok b ∧
      b.length = 2 * a.length ∧ a ≠ b := by
  obtain ⟨T, hT, h⟩ := select_ok t hE (cubicLaue.map .int) hexLaue 4
  rw [← laueGroup_three] at h
  set g := (T.filter (passes t E)).map NMat.val with hg
  have hpos : 0 < g.length := by
    have h1 : passes t E (.int !![1, 0, 0; 0, 1, 0; 0, 0, 1]) = true := by
      apply passes_of_sym ht hE
      have := inPointGroup_one E
      rwa [← toR_one, show (1 : Matrix (Fin 3) (Fin 3) ℤ) = !![1, 0, 0; 0, 1, 0; 0, 0, 1] by
        decide +kernel] at this
    have h2 : NMat.int !![1, 0, 0; 0, 1, 0; 0, 0, 1] ∈ T := by
      rcases hT with rfl | rfl
      · simp [cubicLaue]
      · simp [hexLaue]
    rw [hg, List.length_map]
    exact List.length_pos_of_mem (List.mem_filter.mpr ⟨h2, h1⟩)
  have hp : Lat.pointGroup t ⟨3, E⟩ = .ok (g ++ g.map (fun Q => -Q)) := by
    simp only [Lat.pointGroup, if_true]
    rw [h]
  refine ⟨g.map (Lat.conj ⟨3, E⟩), (g ++ g.map (fun Q => -Q)).map (Lat.conj ⟨3, E⟩),
    by simp only [Lat.getlatticegroup, Lat.specialLatticeGroup, h],
    by simp only [Lat.latticeGroup, hp], ?_, ?_⟩
  · simp only [List.length_map, List.length_append]; ring
  · intro hc
    have := congrArg List.length hc
    simp only [List.length_map, List.length_append] at this
    omega

end Verif.Props
