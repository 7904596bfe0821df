import Verif.Props.Habit

/-!
# Tetragonal twins with habit planes

The stretches `s diag(1, 1, 4)` and `s diag(1, 4, 1)`: examples for C55, C56, C69 and C70.
-/

namespace Verif.Props

open Matrix Verif.Model Verif.Spec Verif.Lemmas

local notation "Mat3" => Matrix (Fin 3) (Fin 3) ℝ

/-- `s diag(1, 1, 4)`. -/
noncomputable def quad (s : ℝ) : Mat3 := diagonal ![s, s, 4 * s]
/-- `s diag(1, 4, 1)`. -/
noncomputable def quad2 (s : ℝ) : Mat3 := diagonal ![s, 4 * s, s]

variable {s : ℝ}

theorem quad_spd (hs : 0 < s) : IsSPD (quad s) := spd_diagonal (by intro i; fin_cases i <;> simp [hs])
theorem quad2_spd (hs : 0 < s) : IsSPD (quad2 s) := spd_diagonal (by intro i; fin_cases i <;> simp [hs])

theorem quad_related : Related (quad s) (quad2 s) := by
  refine ⟨!![-1, 0, 0; 0, 0, 1; 0, 1, 0], ⟨?_, ?_⟩, ?_⟩
  · ext i j; fin_cases i <;> fin_cases j <;> simp [Matrix.mul_apply, Fin.sum_univ_three]
  · simp [det_fin_three]
  · rw [quad, quad2, diagonal_lit, diagonal_lit]
    ext i j
    fin_cases i <;> fin_cases j <;> simp [Matrix.mul_apply, Fin.sum_univ_three]

theorem quad_metric (hs : 0 < s) : relMetric (quad s) (quad2 s) = diagonal ![1, 16, 1 / 16] := by
  rw [quad, quad2, relMetric_diagonal hs.ne' hs.ne' (by positivity)]
  congr 1
  funext i
  have := hs.ne'
  fin_cases i <;> simp <;> field_simp <;> norm_num [this]

theorem quad_sorted (hs : 0 < s) : SortedEigenvalues (relMetric (quad s) (quad2 s)) ![1 / 16, 1, 16] := by
  rw [quad_metric hs]
  refine ⟨mono_three (by norm_num) (by norm_num), ?_⟩
  have h := eigenvalues_diagonal ![(1 : ℝ), 16, 1 / 16]
  unfold IsEigenvalues at h ⊢
  rw [h, Fin.prod_univ_three, Fin.prod_univ_three]
  simp only [Matrix.cons_val]
  ring

theorem quad_connected (hs : 0 < s) : RankOneConnected (quad s) (quad2 s) := by
  have h := rankOne_iff (spd_det_pos (quad_spd hs)).ne'
    (mul_pos (spd_det_pos (quad_spd hs)) (spd_det_pos (quad2_spd hs)))
    (l := ![1 / 16, 1, 16]) (by rw [← relMetric_gram (quad_spd hs).1 (quad2_spd hs).1]; exact quad_sorted hs)
  exact h.2 rfl

theorem quad_differ (hs : 1 / 10 ≤ s) : ∃ i j, 1 / 10 ^ 12 ≤ |quad s i j - quad2 s i j| := by
  refine ⟨1, 1, ?_⟩
  simp only [quad, quad2, diagonal_apply_eq]
  rw [le_abs]
  right
  simp
  linarith

theorem quad_clean (eig : Mat3 → EigRes) (heig : ∀ A, Aᵀ = A → EigOK (eig A).vals (eig A).vecs A) (hs : 0 < s) :
    Clean ⟨quad s, quad2 s, sortEig eig (relMetric (quad s) (quad2 s))⟩ := by
  intro r _ _
  obtain ⟨he, hv⟩ := sorted_eq (heig _ (relMetric_symm (quad_spd hs).1 (quad2_spd hs).1)) (quad_sorted hs)
  set e := sortEig eig (relMetric (quad s) (quad2 s))
  have hvec := he.eigenvector
  rw [quad_metric hs, hv] at hvec
  have a0 := diag_eigvec (hvec 0) 0 (by norm_num)
  have a1 := diag_eigvec (hvec 0) 1 (by norm_num)
  have b1 := diag_eigvec (hvec 1) 1 (by norm_num)
  have b2 := diag_eigvec (hvec 1) 2 (by simp)
  have c0 := diag_eigvec (hvec 2) 0 (by simp)
  show axTest (quad s) e r = 0
  unfold axTest
  rw [quad, Lemmas.dot3, Lemmas.dot3]
  simp only [mulVec_diagonal, a0, a1, b1, b2, c0]
  simp

/-! ### variants -/

theorem quad_entry (hs : 0 < s) (Q : M3) (i j : Fin 3) :
    ((quad s)⁻¹ * (Q * quad s)) i j = ![1, 1, 1 / 4] i * Q i j * ![1, 1, 4] j := by
  rw [quad, diagonal_inv3 hs.ne' hs.ne' (by positivity), Matrix.diagonal_mul, Matrix.mul_diagonal]
  fin_cases i <;> fin_cases j <;> simp <;> field_simp

theorem quad_sym (hs : 0 < s) {R : Matrix (Fin 3) (Fin 3) ℤ} (h1 : R * Rᵀ = 1) (h : R 2 0 = 0 ∧ R 2 1 = 0) :
    InPointGroup (quad s) (toR R) := by
  rw [inPointGroup_iff (spd_det_pos (quad_spd hs)).ne']
  refine ⟨by rw [← toR_transpose, ← toR_mul, h1, toR_one], ?_⟩
  intro i j
  rw [quad_entry hs]
  fin_cases i <;> fin_cases j
  · exact ⟨R 0 0, by simp [toR]⟩
  · exact ⟨R 0 1, by simp [toR]⟩
  · exact ⟨R 0 2 * 4, by simp [toR]⟩
  · exact ⟨R 1 0, by simp [toR]⟩
  · exact ⟨R 1 1, by simp [toR]⟩
  · exact ⟨R 1 2 * 4, by simp [toR]⟩
  · exact ⟨0, by simp [toR, h.1]⟩
  · exact ⟨0, by simp [toR, h.2]⟩
  · exact ⟨R 2 2, by simp [toR]; ring⟩

theorem quad_far (hs : 0 < s) {R : Matrix (Fin 3) (Fin 3) ℤ} (hR : R ∈ cubicLaue)
    (h : ¬ (R 2 0 = 0 ∧ R 2 1 = 0)) :
    ∃ i j, ∀ z : ℤ, 1 / 10 ^ 8 + 1 / 10 ^ 5 * |(z : ℝ)| < |((quad s)⁻¹ * (toR R * quad s)) i j - z| := by
  have key : ∀ j : Fin 3, (![1, 1, 4] : Fin 3 → ℝ) j = 1 → R 2 j ≠ 0 →
      ∃ i j, ∀ z : ℤ, 1 / 10 ^ 8 + 1 / 10 ^ 5 * |(z : ℝ)| < |((quad s)⁻¹ * (toR R * quad s)) i j - z| := by
    intro j hj h0
    refine ⟨2, j, ?_⟩
    rw [quad_entry hs, hj]
    rcases cubic_small R hR 2 j with h | h | h
    · exact absurd h h0
    · have : (![1, 1, 1 / 4] : Fin 3 → ℝ) 2 * toR R 2 j * 1 = 1 / 4 := by simp [toR, h]
      rw [this]
      exact far_of_between 0 (by norm_num) (by norm_num) (by norm_num)
    · have : (![1, 1, 1 / 4] : Fin 3 → ℝ) 2 * toR R 2 j * 1 = -1 / 4 := by simp [toR, h]; ring
      rw [this]
      exact far_of_between (-1) (by norm_num) (by norm_num) (by norm_num)
  rcases not_and_or.1 h with h | h
  · exact key 0 rfl h
  · exact key 1 rfl h

theorem quad_reliable (hs : 0 < s) : Reliable .code (quad s) candidates3 := by
  refine .inr ⟨rfl, ?_⟩
  intro Q hQ
  rcases List.mem_append.mp hQ with hQ | hQ
  · obtain ⟨R, hR, rfl⟩ := List.mem_map.mp hQ
    by_cases h : R 2 0 = 0 ∧ R 2 1 = 0
    · exact .inl (quad_sym hs (cubic_ortho R hR) h)
    · exact .inr (quad_far hs hR h)
  · have half : ∀ Q : M3, Q 0 0 = 1 / 2 ∨ Q 0 0 = -1 / 2 →
        ∃ i j : Fin 3, ∀ z : ℤ, 1 / 10 ^ 8 + 1 / 10 ^ 5 * |(z : ℝ)| <
          |((quad s)⁻¹ * (Q * quad s)) i j - z| := by
      intro Q hQ
      refine ⟨0, 0, ?_⟩
      rw [quad_entry hs]
      have : (![1, 1, 1 / 4] : Fin 3 → ℝ) 0 * Q 0 0 * (![1, 1, 4] : Fin 3 → ℝ) 0 = Q 0 0 := by simp
      rw [this]
      rcases hQ with h | h <;> rw [h]
      · exact far_of_between 0 (by norm_num) (by norm_num) (by norm_num)
      · exact far_of_between (-1) (by norm_num) (by norm_num) (by norm_num)
    simp only [hexLaue, List.map_cons, List.map_nil, List.mem_cons, List.not_mem_nil, or_false,
      NMat.val] at hQ
    rcases hQ with rfl | rfl | rfl | rfl | rfl | rfl | rfl | rfl | rfl | rfl | rfl | rfl
    · exact .inl (quad_sym hs (by decide +kernel) (by decide +kernel))
    · exact .inl (quad_sym hs (by decide +kernel) (by decide +kernel))
    · exact .inl (quad_sym hs (by decide +kernel) (by decide +kernel))
    · exact .inl (quad_sym hs (by decide +kernel) (by decide +kernel))
    all_goals
      refine .inr (half _ ?_)
      first
        | (left; simp [hexC_eq]; done)
        | (right; simp [hexC_eq]; norm_num; done)

open Classical in
theorem quad_laue (hs : 0 < s) : ∃ lg, Lat.laueGroup .code ⟨3, quad s⟩ = .ok lg ∧ lg.length = 8 ∧
    ∀ Q ∈ lg, Q ∈ cubicR := by
  have hE : (quad s).det ≠ 0 := (spd_det_pos (quad_spd hs)).ne'
  have hG : Reliable .code (quad s) ((cubicLaue.map NMat.int).map NMat.val) :=
    (quad_reliable hs).mono fun Q hQ => by
      rw [map_int_val] at hQ; exact List.mem_append_left _ hQ
  have hH : Reliable .code (quad s) (hexLaue.map NMat.val) :=
    (quad_reliable hs).mono fun Q hQ => List.mem_append_right _ hQ
  have hlen : (((cubicLaue.map NMat.int).map NMat.val).filter
      (fun Q => decide (InPointGroup (quad s) Q))).length = 8 := by
    rw [map_int_val, List.filter_map, List.length_map]
    have : cubicLaue.filter ((fun Q => decide (InPointGroup (quad s) Q)) ∘ toR) =
        cubicLaue.filter (fun R => decide (R 2 0 = 0 ∧ R 2 1 = 0)) := by
      refine List.filter_congr fun R hR => ?_
      simp only [Function.comp, decide_eq_decide]
      constructor
      · intro h
        by_contra hc
        obtain ⟨i, j, hf⟩ := quad_far hs hR hc
        obtain ⟨z, hz⟩ := ((inPointGroup_iff hE).1 h).2 i j
        have := hf z
        rw [hz, sub_self, abs_zero] at this
        have h2 := abs_nonneg (z : ℝ)
        norm_num at this
        linarith
      · exact quad_sym hs (cubic_ortho R hR)
    rw [this]
    unfold cubicLaue
    decide +kernel
  refine ⟨_, ?_, hlen, ?_⟩
  · rw [laueGroup_three, select_sym hE hG hH, if_neg (by rw [hlen]; omega)]
  · intro Q hQ
    have := (List.mem_filter.1 hQ).1
    rwa [map_int_val] at this

theorem quad_reversible (hs : 0 < s) : Mart.isReversible .code ⟨some (quad s), cubicR⟩ = .ok true := by
  obtain ⟨lg, h1, h2, h3⟩ := quad_laue hs
  have hl : cubicR.length = 24 := by simp [cubicR, cubicLaue]
  simp only [Mart.isReversible, lat_new_sq false (M := quad s) (spd_det_pos (quad_spd hs)).ne', h1]
  have : hasSubgroup .code cubicR lg = true := by
    rw [C20_hassubgroup _ _ _ (by intro h; rw [h] at hl; simp at hl)]
    refine ⟨by rw [h2, hl]; norm_num, fun A hA => ⟨A, h3 A hA, allclose_self tolOK_code A⟩⟩
  rw [this, hl, h2]
  rfl

def quadZ : Matrix (Fin 3) (Fin 3) ℤ := !![1, 0, 0; 0, 1, 0; 0, 0, 4]

theorem quad_eq : quad s = s • toR quadZ := by
  rw [quad, diagonal_lit]
  ext i j
  fin_cases i <;> fin_cases j <;> simp [quadZ, toR]
  ring

theorem quad_sep (hs : 1 / 10 ≤ s) : ∀ P ∈ cubicR, ∀ Q ∈ cubicR,
    allclose .code (P * quad s * Pᵀ) (Q * quad s * Qᵀ) ↔ P * quad s * Pᵀ = Q * quad s * Qᵀ := by
  intro P hP Q hQ
  obtain ⟨R, hR, rfl⟩ := List.mem_map.1 hP
  obtain ⟨S, hS, rfl⟩ := List.mem_map.1 hQ
  have e : ∀ R : Matrix (Fin 3) (Fin 3) ℤ, toR R * quad s * (toR R)ᵀ = s • toR (R * quadZ * Rᵀ) := by
    intro R
    rw [quad_eq, Matrix.mul_smul, Matrix.smul_mul, ← toR_transpose, ← toR_mul, ← toR_mul]
  have hB : ∀ S ∈ cubicLaue, ∀ i j, |(S * quadZ * Sᵀ) i j| ≤ 1000 := by
    unfold cubicLaue; decide +kernel
  rw [e, e]
  constructor
  · intro h
    congr 2
    ext i j
    have h1 := h i j
    simp only [toR, Matrix.map_apply, Matrix.smul_apply, smul_eq_mul, Tol.code] at h1
    rw [← mul_sub, abs_mul, abs_mul, abs_of_pos (by linarith : 0 < s)] at h1
    have h2 : |(((S * quadZ * Sᵀ) i j : ℤ) : ℝ)| ≤ 1000 := by exact_mod_cast hB S hS i j
    have h3 : |(((R * quadZ * Rᵀ) i j - (S * quadZ * Sᵀ) i j : ℤ) : ℝ)| < 1 := by
      push_cast
      by_contra hc
      push Not at hc
      nlinarith
    have h4 : |(R * quadZ * Rᵀ) i j - (S * quadZ * Sᵀ) i j| < 1 := by exact_mod_cast h3
    rw [Int.abs_lt_one_iff] at h4
    omega
  · intro h; rw [h]; exact allclose_self tolOK_code _

theorem quad_variants (hs : 1 / 10 ≤ s) :
    ∃ vs, Mart.getVariants .code ⟨some (quad s), cubicR⟩ = .ok vs ∧ quad2 s ∈ vs := by
  have hs0 : 0 < s := by linarith
  have h := variants_spec (t := .code) cubicR_group cubicR_nodup cubicR_ortho (quad_sep hs)
  refine ⟨_, ?_, (h.orbit (quad2 s)).2 ⟨toR !![-1, 0, 0; 0, 0, 1; 0, 1, 0], ?_, ?_⟩⟩
  · simp [Mart.getVariants, Mart.calcVariants, quad_reversible hs0]
  · exact List.mem_map_of_mem (by unfold cubicLaue; decide +kernel)
  · rw [quad, quad2, diagonal_lit, diagonal_lit]
    ext i j
    fin_cases i <;> fin_cases j <;> simp [toR, Matrix.mul_apply, Fin.sum_univ_three]

/-! ### the laminates -/

/-- The metric of every laminate of the pair, up to the sign of one off-diagonal entry. -/
theorem quad_laminate (hs : 0 < s) {Q : Mat3} {a n : V3} (h : SolvesTwin (quad s) (quad2 s) Q a n) :
    ∃ σ : ℝ, σ * σ = 1 ∧ ∀ f : ℝ, (quad s + f • vecMulVec n a) * (quad s + f • vecMulVec a n) =
      (s * s) • !![1, 0, 0;
        0, 1 + 15 * f + (f * f - f) * (225 / 17), (f * f - f) * (225 / 17) * σ;
        0, (f * f - f) * (225 / 17) * σ, 16 - 15 * f + (f * f - f) * (225 / 17)] := by
  have hsp := quad_spd hs
  have h1 := solvesTwin_sq hsp.1 (quad2_spd hs).1 h
  have hld := laminate_det hsp quad_related h
  have hu := h.unit
  rw [Lemmas.dot3] at hu
  have hs0 := hs.ne'
  -- the inverse of `quad s` on `a`
  set c := quad s *ᵥ a with hc
  have hca : ∀ i, c i = ![s, s, 4 * s] i * a i := fun i => by rw [hc, quad, mulVec_diagonal]
  have e : ∀ i j, (quad2 s * quad2 s) i j = (quad s * quad s) i j +
      (n i * c j + c i * n j + (a ⬝ᵥ a) * (n i * n j)) := by
    intro i j
    rw [h1]
    simp [vecMulVec_apply]
  have e00 := e 0 0
  have e01 := e 0 1
  have e02 := e 0 2
  have e11 := e 1 1
  have e12 := e 1 2
  have e22 := e 2 2
  have hm := mix_expand hsp.1 a n
  rw [← hc] at hm
  set t := a ⬝ᵥ a with ht
  rw [Lemmas.dot3] at ht
  simp only [quad, quad2, diagonal_mul_diagonal, diagonal_apply, cons_val] at e00 e01 e02 e11 e12 e22
  simp at e00 e01 e02 e11 e12 e22
  have hd1 := hld 1
  rw [quad, diagonal_lit, det_fin_three, det_fin_three] at hd1
  simp [vecMulVec_apply] at hd1
  have c0 := hca 0
  have c1 := hca 1
  have c2 := hca 2
  simp at c0 c1 c2
  clear_value c
  set d0 := c 0 + t / 2 * n 0 with hd0
  set d1 := c 1 + t / 2 * n 1 with hd1'
  set d2 := c 2 + t / 2 * n 2 with hd2
  have f00 : n 0 * d0 = 0 := by rw [hd0]; linear_combination (1 / 2 : ℝ) * e00
  have f01 : n 0 * d1 + n 1 * d0 = 0 := by rw [hd0, hd1']; linear_combination -e01
  have f11 : n 1 * d1 = 15 / 2 * (s * s) := by rw [hd1']; linear_combination -(1 / 2 : ℝ) * e11
  have f22 : n 2 * d2 = -15 / 2 * (s * s) := by rw [hd2]; linear_combination -(1 / 2 : ℝ) * e22
  have f12 : n 1 * d2 + n 2 * d1 = 0 := by rw [hd1', hd2]; linear_combination -e12
  have hss : 0 < s * s := by positivity
  have n0 : n 0 = 0 := sym_dyad f00 f01 (by rw [f11]; positivity)
  have hn2 : n 1 * n 1 = n 2 * n 2 := by
    have : (n 1 * n 1 - n 2 * n 2) * (s * s) = 0 := by
      linear_combination (2 / 15 : ℝ) * (-(n 1 * n 2) * f12 + (n 1 * n 1) * f22 + (n 2 * n 2) * f11)
    have := (mul_eq_zero.1 this).resolve_right hss.ne'
    linarith
  rw [n0] at hu
  have g1 : n 1 * n 1 = 1 / 2 := by linarith
  have g2 : n 2 * n 2 = 1 / 2 := by linarith
  -- the shear is normal to `U⁻¹ n`
  have horth : 4 * (n 1 * a 1) + n 2 * a 2 = 0 := by
    rw [n0] at hd1
    have : s * s * (4 * (n 1 * a 1) + n 2 * a 2) = 0 := by linear_combination hd1
    exact (mul_eq_zero.1 this).resolve_left hss.ne'
  have htv : t = 225 / 17 * 2 * (s * s) := by
    have k1 : n 1 * c 1 = 15 / 2 * (s * s) - t / 4 := by rw [hd1'] at f11; linear_combination f11 - t / 2 * g1
    have k2 : n 2 * c 2 = -15 / 2 * (s * s) - t / 4 := by rw [hd2] at f22; linear_combination f22 - t / 2 * g2
    have k3 : 16 * (n 1 * c 1) + n 2 * c 2 = 0 := by
      rw [c1, c2]; linear_combination (4 * s) * horth
    linear_combination (4 / 17 : ℝ) * (16 * k1 + k2 - k3)
  refine ⟨2 * (n 1 * n 2), by linear_combination 4 * (n 2 * n 2) * g1 + 2 * g2, fun f => ?_⟩
  have hd0z : d0 = 0 := by
    rw [n0, zero_mul, zero_add] at f01
    rcases mul_eq_zero.1 f01 with h | h
    · rw [h] at g1; norm_num at g1
    · exact h
  have hc0 : c 0 = 0 := by rw [hd0, n0, mul_zero, add_zero] at hd0z; exact hd0z
  have := eq_add_of_sub_eq (hm f)
  rw [this, quad, diagonal_mul_diagonal]
  ext i j
  fin_cases i <;> fin_cases j <;> simp [vecMulVec_apply, n0, hc0]
  · linear_combination -f * e11 + f * f * t * g1 - f * t * g1 + (f * f - f) / 2 * htv
  · linear_combination -f * e12 + (f * f - f) * (n 1 * n 2) * htv
  · linear_combination -f * e12 + (f * f - f) * (n 1 * n 2) * htv
  · linear_combination -f * e22 + f * f * t * g2 - f * t * g2 + (f * f - f) / 2 * htv

/-- With the fractions 28/45 and 17/45 the principal stretches of the laminates are `s`, `4s/3` and `3s`. -/
theorem quad_sorted_laminate (hs : 0 < s) {Q : Mat3} {a n : V3} (h : SolvesTwin (quad s) (quad2 s) Q a n)
    {f : ℝ} (hf : f = 28 / 45 ∨ f = 17 / 45) :
    SortedEigenvalues ((quad s + f • vecMulVec a n)ᵀ * (quad s + f • vecMulVec a n))
      ![s * s, 16 / 9 * (s * s), 9 * (s * s)] := by
  have hss : 0 < s * s := by positivity
  refine ⟨mono_three (by linarith) (by linarith), ?_⟩
  obtain ⟨σ, hσ, hm⟩ := quad_laminate hs h
  rw [laminate_metric (quad_spd hs).1, hm]
  unfold IsEigenvalues
  refine Polynomial.funext fun x => ?_
  rw [charpoly_eval3, Polynomial.eval_prod, Fin.prod_univ_three]
  rcases hf with rfl | rfl
  · simp [trace, Fin.sum_univ_three, det_fin_three]
    linear_combination (784 / 81 * (s ^ 6 - x * s ^ 4)) * hσ
  · simp [trace, Fin.sum_univ_three, det_fin_three]
    linear_combination (784 / 81 * (s ^ 6 - x * s ^ 4)) * hσ

theorem quad_interface (hs : 0 < s) {Q : Mat3} {a n : V3} (h : SolvesTwin (quad s) (quad2 s) Q a n) (f : ℝ) :
    interfaceDet (quad s) a n f = (s * s - 1) *
      ((s * s) ^ 2 * 16 - (s * s) * (17 + 2 * (f * f - f) * (225 / 17)) + 1) := by
  obtain ⟨σ, hσ, hm⟩ := quad_laminate hs h
  rw [interfaceDet, hm, det_fin_three]
  simp
  linear_combination (-(s * s - 1) * (s * s) ^ 2 * ((f * f - f) * (225 / 17)) ^ 2) * hσ

/-- For `s = 3/4` and `s = 1/3` both fractions returned are 28/45. -/
theorem quad_frac (hs : s = 3 / 4 ∨ s = 1 / 3) {Q : Mat3} {a n : V3}
    (h : SolvesTwin (quad s) (quad2 s) Q a n) : solveF (quad s) a n = some (28 / 45) := by
  have hs0 : 0 < s := by rcases hs with rfl | rfl <;> norm_num
  have h2 : interfaceDet (quad s) a n (28 / 45) = 0 := by
    rw [quad_interface hs0 h]
    rcases hs with rfl | rfl <;> norm_num
  have h1 : 1 / (4 * 10 ^ 12) ≤ |interfaceDet (quad s) a n (1 / 2) - interfaceDet (quad s) a n 0| := by
    rw [quad_interface hs0 h, quad_interface hs0 h]
    rcases hs with rfl | rfl <;> norm_num [abs_of_pos, abs_of_neg]
  have h3 := (C56_complete_partial _ _ Q a n (quad_spd hs0) (quad2_spd hs0) quad_related h h1 (28 / 45)
    (by norm_num) (by norm_num) h2).1
  rwa [if_neg (by norm_num [abs_of_pos])] at h3

theorem quad_pair (eig : Mat3 → EigRes) (heig : ∀ A, Aᵀ = A → EigOK (eig A).vals (eig A).vecs A)
    (hs : s = 3 / 4 ∨ s = 1 / 3) :
    ∃ p Q₁ a₁ n₁ Q₂ a₂ n₂, TwinPair.new eig (quad s) (quad2 s) false = .ok p ∧ p.Ui = quad s ∧
      p.twinParam eig .code id false = .ok (some (some (Q₁, a₁, n₁), some (Q₂, a₂, n₂))) ∧
      SolvesTwin (quad s) (quad2 s) Q₁ a₁ n₁ ∧ SolvesTwin (quad s) (quad2 s) Q₂ a₂ n₂ ∧
      p.volumeFrac eig .code id false = .ok (some (28 / 45), some (28 / 45)) := by
  have hs1 : 1 / 10 ≤ s := by rcases hs with rfl | rfl <;> norm_num
  have hs0 : 0 < s := by linarith
  obtain ⟨vs, h1, h2⟩ := quad_variants hs1
  obtain ⟨p, hp, h⟩ := C55_exact eig heig .code (quad s) (quad2 s) (quad_spd hs0) (quad2_spd hs0) quad_related
    (quad_differ hs1) (quad_connected hs0) vs h1 h2 false
  have hp' := hp
  rw [new_ok eig (quad_spd hs0) (quad2_spd hs0)] at hp'
  cases hp'
  obtain ⟨Q₁, a₁, n₁, Q₂, a₂, n₂, h3, h4, h5⟩ := h (quad_clean eig heig hs0)
  refine ⟨_, Q₁, a₁, n₁, Q₂, a₂, n₂, hp, rfl, h3, h4, h5, ?_⟩
  unfold TwinPair.volumeFrac
  simp only [h3, fracOf, quad_frac hs h4, quad_frac hs h5]

theorem quad_good {Q : Mat3} {a n : V3} (h : SolvesTwin (quad (3 / 4)) (quad2 (3 / 4)) Q a n) :
    GoodFraction (quad (3 / 4)) a n (28 / 45) := by
  refine ⟨_, quad_sorted_laminate (by norm_num) h (.inl rfl), ?_, ?_, ?_, ?_⟩ <;> simp <;> norm_num

-- the pair `3/4 diag(1, 1, 4)`, `3/4 diag(1, 4, 1)` meets all the hypotheses and has eight habit planes
example (eig : Mat3 → EigRes) (heig : ∀ A, Aᵀ = A → EigOK (eig A).vals (eig A).vecs A) :
    ∃ p x₁ y₁ x₂ y₂ x₃ y₃ x₄ y₄, TwinPair.new eig (quad (3 / 4)) (quad2 (3 / 4)) false = .ok p ∧
      p.habitPlanes eig .code id false .C = .ok [x₁, y₁, x₂, y₂, x₃, y₃, x₄, y₄] := by
  obtain ⟨p, Q₁, a₁, n₁, Q₂, a₂, n₂, hp, hu, h1, h2, h3, h4⟩ := quad_pair eig heig (s := 3 / 4) (.inl rfl)
  have e : p.Ui = quad (3 / 4) := hu
  obtain ⟨x₁, y₁, x₂, y₂, x₃, y₃, x₄, y₄, h, _⟩ := C70_habitplanes_partial eig heig .code id false p
    (quad2 (3 / 4)) Q₁ Q₂ a₁ n₁ a₂ n₂ (28 / 45) (28 / 45) (by rw [e]; exact quad_spd (by norm_num))
    (quad2_spd (by norm_num)) (by rw [e]; exact quad_related) h1 (by rw [e]; exact h2) (by rw [e]; exact h3) h4
    (by rw [e]; exact quad_good h2) (by rw [e]; exact quad_good h3) .C (by simp)
  exact ⟨p, x₁, y₁, x₂, y₂, x₃, y₃, x₄, y₄, hp, h⟩

/-- If the middle eigenvalue is not one, `_solve_am` returns two triples all the same. -/
theorem am_two (eig : Mat3 → EigRes) (heig : ∀ A, Aᵀ = A → EigOK (eig A).vals (eig A).vecs A)
    {C : Mat3} (hC : IsSPD C) {l : Fin 3 → ℝ} (hl : SortedEigenvalues C l) (hinj : Function.Injective l)
    (h : 1 / 10 ^ 24 ≤ l 2 - l 0) : ∃ x y, extendAm eig C = .ok [some x, some y] := by
  obtain ⟨he, hv⟩ := sorted_eq (heig C hC.1) hl
  have h02 : l 0 < l 2 := by have : (0 : ℝ) < 1 / 10 ^ 24 := by norm_num
                             linarith
  have hne : ∀ s : ℝ, s * s = 1 → amM (sortEig eig C) (Real.sqrt (l 2 - l 0)) (Real.sqrt |1 - l 0|)
      (Real.sqrt |l 2 - 1|) s ≠ 0 := by
    intro s hs
    refine amM_ne_zero hC he (by rw [hv]; exact h02) hs (Real.sqrt_pos.2 (by linarith)).ne' ?_
    by_cases h0 : l 0 = 1
    · right
      exact (Real.sqrt_pos.2 (abs_pos.2 (by rw [← h0]; linarith))).ne'
    · left
      exact (Real.sqrt_pos.2 (abs_pos.2 (sub_ne_zero.2 (Ne.symm h0)))).ne'
  have hli := eig_indep hC.1 (heig _ hC.1) hl.2 hinj
  have hd : (ofCols (eig C).vecs).det ≠ 0 := by
    have : (ofCols (eig C).vecs)ᵀ = Matrix.of (eig C).vecs := rfl
    rw [← Matrix.det_transpose, this]
    intro h0
    have hrow := (Matrix.linearIndependent_rows_iff_isUnit (A := Matrix.of (eig C).vecs)).1 hli
    rw [Matrix.isUnit_iff_isUnit_det, h0] at hrow
    exact not_isUnit_zero hrow
  have hSd : (eigSqrt (eig C)).det ≠ 0 := (spd_det_pos (eigSqrt_spec hC (heig C hC.1) hd).1).ne'
  have p0 := spd_eigen_pos hC hl.2 0
  have p2 := spd_eigen_pos hC hl.2 2
  unfold extendAm
  simp only [solveAm, hv]
  rw [if_neg (not_not.2 (posDefSym_of_spd hC)), if_neg (by rw [sqrt_lt_small]; exact not_lt.2 h),
    if_neg (by rintro (h | h) <;> linarith),
    if_neg (by rintro (h | h); exacts [hne 1 (by norm_num) h, hne (-1) (by norm_num) h]),
    if_neg (show ¬ (Matrix.of fun i j => (eig C).vecs j i : Mat3).det = 0 from hd), if_neg hSd]
  exact ⟨_, _, rfl⟩

/-- **C70**, the middle eigenvalue is not tested: for the pair `1/3 diag(1, 1, 4)`, `1/3 diag(1, 4, 1)` both
solutions of the twinning equation are exact, both fractions 28/45 make the determinant vanish and `habitplanes()`
returns eight triples, but there is no habit plane for any of the laminates. -/
theorem C70_middle_fails (eig : Mat3 → EigRes) (heig : ∀ A, Aᵀ = A → EigOK (eig A).vals (eig A).vecs A) :
    ∃ U V p Q₁ a₁ n₁ Q₂ a₂ n₂ f, IsSPD U ∧ IsSPD V ∧ Related U V ∧ TwinPair.new eig U V false = .ok p ∧
      p.twinParam eig .code id false = .ok (some (some (Q₁, a₁, n₁), some (Q₂, a₂, n₂))) ∧
      SolvesTwin U V Q₁ a₁ n₁ ∧ SolvesTwin U V Q₂ a₂ n₂ ∧
      p.volumeFrac eig .code id false = .ok (some f, some f) ∧
      interfaceDet U a₁ n₁ f = 0 ∧ interfaceDet U a₂ n₂ f = 0 ∧
      (∃ t₁ t₂ t₃ t₄ t₅ t₆ t₇ t₈, p.habitPlanes eig .code id false .C =
        .ok [some t₁, some t₂, some t₃, some t₄, some t₅, some t₆, some t₇, some t₈]) ∧
      ∀ g, g = f ∨ g = 1 - f → ∀ b m, ¬ HabitPlane (U + g • vecMulVec a₁ n₁) b m ∧
        ¬ HabitPlane (U + g • vecMulVec a₂ n₂) b m := by
  obtain ⟨p, Q₁, a₁, n₁, Q₂, a₂, n₂, hp, hu, h1, h2, h3, h4⟩ := quad_pair eig heig (s := 1 / 3) (.inr rfl)
  have hs : (0 : ℝ) < 1 / 3 := by norm_num
  have hsp := quad_spd hs
  have hpos : ∀ {Q : Mat3} {a n : V3}, SolvesTwin (quad (1 / 3)) (quad2 (1 / 3)) Q a n → ∀ f : ℝ,
      0 < (quad (1 / 3) + f • vecMulVec a n).det := fun h f => by
    rw [laminate_det hsp quad_related h]; exact spd_det_pos hsp
  have hno : ∀ {Q : Mat3} {a n : V3}, SolvesTwin (quad (1 / 3)) (quad2 (1 / 3)) Q a n → ∀ f : ℝ,
      f = 28 / 45 ∨ f = 17 / 45 → ∀ b m, ¬ HabitPlane (quad (1 / 3) + f • vecMulVec a n) b m := by
    intro Q a n h f hf b m hb
    have hl := quad_sorted_laminate hs h hf
    rw [← (habit_rankOne (hpos h f) hb).1.2] at hl
    have := mid_one hl
    simp at this
    norm_num at this
  have hstep : ∀ {Q : Mat3} {a n : V3}, SolvesTwin (quad (1 / 3)) (quad2 (1 / 3)) Q a n →
      ∃ t₁ t₂ t₃ t₄, habitStep eig (quad (1 / 3)) (some (Q, a, n)) (some (28 / 45)) =
        .ok [some t₁, some t₂, some t₃, some t₄] := by
    intro Q a n h
    have hinj : Function.Injective (![1 / 3 * (1 / 3), 16 / 9 * (1 / 3 * (1 / 3)), 9 * (1 / 3 * (1 / 3))] : Fin 3 → ℝ) := by
      intro i j hij
      fin_cases i <;> fin_cases j <;> first | rfl | (exfalso; simp at hij; done) | (exfalso; simp at hij; norm_num at hij)
    have hgap : (1 : ℝ) / 10 ^ 24 ≤ (![1 / 3 * (1 / 3), 16 / 9 * (1 / 3 * (1 / 3)), 9 * (1 / 3 * (1 / 3))] : Fin 3 → ℝ) 2 -
        (![1 / 3 * (1 / 3), 16 / 9 * (1 / 3 * (1 / 3)), 9 * (1 / 3 * (1 / 3))] : Fin 3 → ℝ) 0 := by
      simp; norm_num
    obtain ⟨x₁, y₁, e1⟩ := am_two eig heig (spd_of_gram (hpos h _).ne')
      (quad_sorted_laminate hs h (f := 28 / 45) (.inl rfl)) hinj hgap
    obtain ⟨x₂, y₂, e2⟩ := am_two eig heig (spd_of_gram (hpos h _).ne')
      (quad_sorted_laminate hs h (f := 17 / 45) (.inr rfl)) hinj hgap
    refine ⟨x₁, y₁, x₂, y₂, ?_⟩
    have e45 : (1 : ℝ) - 28 / 45 = 17 / 45 := by norm_num
    unfold habitStep mixMetric
    simp only [outer_eq, e1, e45, e2]
    rfl
  obtain ⟨t₁, t₂, t₃, t₄, s1⟩ := hstep h2
  obtain ⟨t₅, t₆, t₇, t₈, s2⟩ := hstep h3
  have hint : ∀ {Q : Mat3} {a n : V3}, SolvesTwin (quad (1 / 3)) (quad2 (1 / 3)) Q a n →
      interfaceDet (quad (1 / 3)) a n (28 / 45) = 0 := fun h => by
    rw [quad_interface hs h]; norm_num
  refine ⟨quad (1 / 3), quad2 (1 / 3), p, Q₁, a₁, n₁, Q₂, a₂, n₂, 28 / 45, hsp, quad2_spd hs, quad_related, hp,
    h1, h2, h3, h4, hint h2, hint h3, ⟨t₁, t₂, t₃, t₄, t₅, t₆, t₇, t₈, ?_⟩, ?_⟩
  · unfold TwinPair.habitPlanes TwinPair.isCompat
    simp only [h4, h1, hu, s1, s2, Option.isSome_some, Bool.or_self]
    rfl
  · intro g hg b m
    have hg' : g = 28 / 45 ∨ g = 17 / 45 := by
      rcases hg with rfl | rfl
      · exact .inl rfl
      · right; norm_num
    exact ⟨hno h2 g hg' b m, hno h3 g hg' b m⟩

end Verif.Props
