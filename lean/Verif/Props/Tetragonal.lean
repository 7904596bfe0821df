import Verif.Spec.Tetragonal
import Verif.Props.Habit
import Verif.Props.LatticeGroups

/-!
# Cubic to tetragonal transformations

C101: three variants, each pair a compound twin with the twin planes `{110}`.
-/

namespace Verif.Props

open Matrix Verif.Model Verif.Spec Verif.Lemmas

local notation "Mat3" => Matrix (Fin 3) (Fin 3) ℝ

variable {α γ : ℝ} {t : Tol}

/-! ### indices -/

theorem third (i j : Fin 3) (h : i ≠ j) : ∃ k, k ≠ i ∧ k ≠ j ∧ (∀ l, l = i ∨ l = j ∨ l = k) ∧
    ∀ f : Fin 3 → ℝ, ∑ l, f l = f i + f j + f k := by
  fin_cases i <;> fin_cases j <;> first | exact absurd rfl h | skip
  · exact ⟨2, by decide, by decide, by decide, fun f => by simp [Fin.sum_univ_three]⟩
  · exact ⟨1, by decide, by decide, by decide, fun f => by simp [Fin.sum_univ_three]; ring⟩
  · exact ⟨2, by decide, by decide, by decide, fun f => by simp [Fin.sum_univ_three]; ring⟩
  · exact ⟨0, by decide, by decide, by decide, fun f => by simp [Fin.sum_univ_three]; ring⟩
  · exact ⟨1, by decide, by decide, by decide, fun f => by simp [Fin.sum_univ_three]; ring⟩
  · exact ⟨0, by decide, by decide, by decide, fun f => by simp [Fin.sum_univ_three]; ring⟩

theorem clearly_pos (h : ClearlyTetragonal α γ) : 0 < α ∧ 0 < γ :=
  ⟨lt_of_lt_of_le (by norm_num) h.1, lt_of_lt_of_le (by norm_num) h.2.1⟩

theorem clearly_gap (h : ClearlyTetragonal α γ) : 1 / 10 ^ 7 ≤ |γ - α| := by
  obtain ⟨h1, h2, h | h⟩ := h
  · rw [le_abs]; right; linarith
  · rw [le_abs]; left; linarith

theorem clearly_ne (h : ClearlyTetragonal α γ) : α ≠ γ := by
  intro he
  have := clearly_gap h
  rw [he, sub_self, abs_zero] at this
  norm_num at this

theorem tetra_pos (hα : 0 < α) (hγ : 0 < γ) (k i : Fin 3) : 0 < (if i = k then γ else α) := by
  split_ifs <;> assumption

theorem tetraStretch_spd (hα : 0 < α) (hγ : 0 < γ) (k : Fin 3) : IsSPD (tetraStretch α γ k) :=
  spd_diagonal (tetra_pos hα hγ k)

/-! ### symmetry and variants -/

theorem tetraStretch_inv (hα : 0 < α) (hγ : 0 < γ) (k : Fin 3) :
    (tetraStretch α γ k)⁻¹ = diagonal fun i => (if i = k then γ else α)⁻¹ := by
  apply Matrix.inv_eq_right_inv
  rw [tetraStretch, diagonal_mul_diagonal, ← diagonal_one]
  congr 1
  funext i
  exact mul_inv_cancel₀ (tetra_pos hα hγ k i).ne'

theorem tetraStretch_entry (hα : 0 < α) (hγ : 0 < γ) (k : Fin 3) (Q : M3) (i j : Fin 3) :
    ((tetraStretch α γ k)⁻¹ * (Q * tetraStretch α γ k)) i j =
      Q i j * ((if j = k then γ else α) / (if i = k then γ else α)) := by
  rw [tetraStretch_inv hα hγ, tetraStretch, Matrix.diagonal_mul, Matrix.mul_diagonal]
  ring

theorem tetraStretch_sym (hα : 0 < α) (hγ : 0 < γ) (k : Fin 3) {R : Matrix (Fin 3) (Fin 3) ℤ} (h1 : R * Rᵀ = 1)
    (h : ∀ l, l ≠ k → R k l = 0 ∧ R l k = 0) : InPointGroup (tetraStretch α γ k) (toR R) := by
  rw [inPointGroup_iff (spd_det_pos (tetraStretch_spd hα hγ k)).ne']
  refine ⟨by rw [← toR_transpose, ← toR_mul, h1, toR_one], ?_⟩
  intro i j
  rw [tetraStretch_entry hα hγ]
  refine ⟨R i j, ?_⟩
  by_cases hi : i = k
  · by_cases hj : j = k
    · simp [hi, hj, toR, hγ.ne']
    · simp [hi, toR, (h j hj).1]
  · by_cases hj : j = k
    · simp [hj, toR, (h i hi).2]
    · simp [hi, hj, toR, hα.ne']

theorem far_ratio {x : ℝ} (h1 : 1 / 10 ^ 4 ≤ x) (h2 : x ≤ 1 - 1 / 10 ^ 4) (z : ℤ) :
    1 / 10 ^ 8 + 1 / 10 ^ 5 * |(z : ℝ)| < |x - z| := by
  rcases le_or_gt z 0 with h | h
  · have hz : (z : ℝ) ≤ 0 := by exact_mod_cast h
    rw [abs_of_nonpos hz, abs_of_nonneg (by linarith)]
    linarith
  · have hz : (1 : ℝ) ≤ z := by exact_mod_cast h
    rw [abs_of_nonneg (by linarith), abs_of_nonpos (by linarith)]
    linarith

theorem far_ratio_neg {x : ℝ} (h1 : 1 / 10 ^ 4 ≤ x) (h2 : x ≤ 1 - 1 / 10 ^ 4) (z : ℤ) :
    1 / 10 ^ 8 + 1 / 10 ^ 5 * |(z : ℝ)| < |-x - z| := by
  have := far_ratio h1 h2 (-z)
  push_cast at this
  rw [abs_neg] at this
  rwa [show -x - (z : ℝ) = -(x - -z) by ring, abs_neg]

theorem cubic_axis : ∀ R ∈ cubicLaue, ∀ k : Fin 3, (∀ l, l ≠ k → R k l = 0 ∧ R l k = 0) ∨
    ((∃ l, l ≠ k ∧ R k l ≠ 0) ∧ ∃ l, l ≠ k ∧ R l k ≠ 0) := by
  have h : ∀ R ∈ cubicLaue, ∀ k : Fin 3,
      (((∀ l : Fin 3, l = k ∨ (R k l == 0) = true) ↔ ∀ l : Fin 3, l = k ∨ (R l k == 0) = true)) := by
    unfold cubicLaue; decide +kernel
  intro R hR k
  have hk := h R hR k
  simp only [beq_iff_eq] at hk
  by_cases hr : ∀ l, l = k ∨ R k l = 0
  · exact .inl fun l hl => ⟨(hr l).resolve_left hl, (hk.1 hr l).resolve_left hl⟩
  · have hc : ¬ ∀ l, l = k ∨ R l k = 0 := fun hc => hr (hk.2 hc)
    push Not at hr hc
    exact .inr ⟨hr, hc⟩

theorem cubic_eight (k : Fin 3) :
    (cubicLaue.filter (fun R => decide (∀ l, l ≠ k → R k l = 0 ∧ R l k = 0))).length = 8 := by
  unfold cubicLaue
  revert k
  decide +kernel

theorem tetraStretch_far (h : ClearlyTetragonal α γ) (k : Fin 3) {R : Matrix (Fin 3) (Fin 3) ℤ} (hR : R ∈ cubicLaue)
    (h1 : ∃ l, l ≠ k ∧ R k l ≠ 0) (h2 : ∃ l, l ≠ k ∧ R l k ≠ 0) :
    ∃ i j, ∀ z : ℤ, 1 / 10 ^ 8 + 1 / 10 ^ 5 * |(z : ℝ)| <
      |((tetraStretch α γ k)⁻¹ * (toR R * tetraStretch α γ k)) i j - z| := by
  obtain ⟨hα, hγ⟩ := clearly_pos h
  have key : ∀ (i j : Fin 3) (x : ℝ), R i j ≠ 0 → (if j = k then γ else α) / (if i = k then γ else α) = x →
      1 / 10 ^ 4 ≤ x → x ≤ 1 - 1 / 10 ^ 4 → ∃ i j, ∀ z : ℤ, 1 / 10 ^ 8 + 1 / 10 ^ 5 * |(z : ℝ)| <
      |((tetraStretch α γ k)⁻¹ * (toR R * tetraStretch α γ k)) i j - z| := by
    intro i j x h0 hx hl hu
    refine ⟨i, j, fun z => ?_⟩
    rw [tetraStretch_entry hα hγ, hx]
    rcases cubic_small R hR i j with h | h | h
    · exact absurd h h0
    · have : toR R i j * x = x := by simp [toR, h]
      rw [this]
      exact far_ratio hl hu z
    · have : toR R i j * x = -x := by simp [toR, h]
      rw [this]
      exact far_ratio_neg hl hu z
  obtain ⟨-, -, ⟨ha, hb⟩ | ⟨ha, hb⟩⟩ := h
  · obtain ⟨l, hl, h0⟩ := h2
    refine key l k (γ / α) h0 (by simp [hl]) ?_ ?_
    · rwa [le_div_iff₀ hα]
    · rwa [div_le_iff₀ hα]
  · obtain ⟨l, hl, h0⟩ := h1
    refine key k l (α / γ) h0 (by simp [hl]) ?_ ?_
    · rwa [le_div_iff₀ hγ]
    · rwa [div_le_iff₀ hγ]

theorem tetraStretch_reliable (h : ClearlyTetragonal α γ) (k : Fin 3) (ht : t = .code ∨ t = .exact) :
    Reliable t (tetraStretch α γ k) candidates3 := by
  rcases ht with rfl | rfl
  swap
  · exact .inl rfl
  obtain ⟨hα, hγ⟩ := clearly_pos h
  refine .inr ⟨rfl, ?_⟩
  intro Q hQ
  rcases List.mem_append.mp hQ with hQ | hQ
  · obtain ⟨R, hR, rfl⟩ := List.mem_map.mp hQ
    rcases cubic_axis R hR k with hk | ⟨h1, h2⟩
    · exact .inl (tetraStretch_sym hα hγ k (cubic_ortho R hR) hk)
    · exact .inr (tetraStretch_far h k hR h1 h2)
  · have half : ∀ Q : M3, Q 0 0 = 1 / 2 ∨ Q 0 0 = -1 / 2 →
        ∃ i j : Fin 3, ∀ z : ℤ, 1 / 10 ^ 8 + 1 / 10 ^ 5 * |(z : ℝ)| <
          |((tetraStretch α γ k)⁻¹ * (Q * tetraStretch α γ k)) i j - z| := by
      intro Q hQ
      refine ⟨0, 0, ?_⟩
      rw [tetraStretch_entry hα hγ, div_self (tetra_pos hα hγ k 0).ne', mul_one]
      rcases hQ with h | h <;> rw [h]
      · exact far_of_between 0 (by norm_num) (by norm_num) (by norm_num)
      · exact far_of_between (-1) (by norm_num) (by norm_num) (by norm_num)
    simp only [hexLaue, List.map_cons, List.map_nil, List.mem_cons, List.not_mem_nil, or_false,
      NMat.val] at hQ
    rcases hQ with rfl | rfl | rfl | rfl | rfl | rfl | rfl | rfl | rfl | rfl | rfl | rfl
    · exact .inl (tetraStretch_sym hα hγ k (by decide +kernel) (by intro l hl; clear half; revert hl; fin_cases k <;> fin_cases l <;> simp))
    · exact .inl (tetraStretch_sym hα hγ k (by decide +kernel) (by intro l hl; clear half; revert hl; fin_cases k <;> fin_cases l <;> simp))
    · exact .inl (tetraStretch_sym hα hγ k (by decide +kernel) (by intro l hl; clear half; revert hl; fin_cases k <;> fin_cases l <;> simp))
    · exact .inl (tetraStretch_sym hα hγ k (by decide +kernel) (by intro l hl; clear half; revert hl; fin_cases k <;> fin_cases l <;> simp))
    all_goals
      refine .inr (half _ ?_)
      first
        | (left; simp [hexC_eq]; done)
        | (right; simp [hexC_eq]; norm_num; done)

open Classical in
theorem tetraStretch_laue (h : ClearlyTetragonal α γ) (k : Fin 3) (ht : t = .code ∨ t = .exact) :
    ∃ lg, Lat.laueGroup t ⟨3, tetraStretch α γ k⟩ = .ok lg ∧ lg.length = 8 ∧ ∀ Q ∈ lg, Q ∈ cubicR := by
  obtain ⟨hα, hγ⟩ := clearly_pos h
  have hE : (tetraStretch α γ k).det ≠ 0 := (spd_det_pos (tetraStretch_spd hα hγ k)).ne'
  have hr := tetraStretch_reliable h k ht
  have hG : Reliable t (tetraStretch α γ k) ((cubicLaue.map NMat.int).map NMat.val) :=
    hr.mono fun Q hQ => by rw [map_int_val] at hQ; exact List.mem_append_left _ hQ
  have hH : Reliable t (tetraStretch α γ k) (hexLaue.map NMat.val) :=
    hr.mono fun Q hQ => List.mem_append_right _ hQ
  have hlen : (((cubicLaue.map NMat.int).map NMat.val).filter
      (fun Q => decide (InPointGroup (tetraStretch α γ k) Q))).length = 8 := by
    rw [map_int_val, List.filter_map, List.length_map]
    have : cubicLaue.filter ((fun Q => decide (InPointGroup (tetraStretch α γ k) Q)) ∘ toR) =
        cubicLaue.filter (fun R => decide (∀ l, l ≠ k → R k l = 0 ∧ R l k = 0)) := by
      refine List.filter_congr fun R hR => ?_
      simp only [Function.comp, decide_eq_decide]
      constructor
      · intro hp
        refine (cubic_axis R hR k).resolve_right fun hc => ?_
        obtain ⟨i, j, hf⟩ := tetraStretch_far h k hR hc.1 hc.2
        obtain ⟨z, hz⟩ := ((inPointGroup_iff hE).1 hp).2 i j
        have := hf z
        rw [hz, sub_self, abs_zero] at this
        have h2 := abs_nonneg (z : ℝ)
        norm_num at this
        linarith
      · exact tetraStretch_sym hα hγ k (cubic_ortho R hR)
    rw [this]
    exact cubic_eight k
  refine ⟨_, ?_, hlen, ?_⟩
  · rw [laueGroup_three, select_sym hE hG hH, if_neg (by rw [hlen]; omega)]
  · intro Q hQ
    have := (List.mem_filter.1 hQ).1
    rwa [map_int_val] at this

theorem tolOK_of (ht : t = .code ∨ t = .exact) : TolOK t := by
  rcases ht with rfl | rfl
  · exact tolOK_code
  · exact tolOK_exact

theorem tetraStretch_reversible (h : ClearlyTetragonal α γ) (k : Fin 3) (ht : t = .code ∨ t = .exact) :
    Mart.isReversible t ⟨some (tetraStretch α γ k), cubicR⟩ = .ok true := by
  obtain ⟨lg, h1, h2, h3⟩ := tetraStretch_laue h k ht
  obtain ⟨hα, hγ⟩ := clearly_pos h
  have hl : cubicR.length = 24 := by simp [cubicR, cubicLaue]
  simp only [Mart.isReversible, lat_new_sq false (M := tetraStretch α γ k) (spd_det_pos (tetraStretch_spd hα hγ k)).ne', h1]
  have : hasSubgroup t cubicR lg = true := by
    rw [C20_hassubgroup _ _ _ (by intro h; rw [h] at hl; simp at hl)]
    refine ⟨by rw [h2, hl]; norm_num, fun A hA => ⟨A, h3 A hA, allclose_self (tolOK_of ht) A⟩⟩
  rw [this, hl, h2]
  rfl

/-- the matrix with a single one, at the place `k` of the diagonal -/
def unitAt (k : Fin 3) : Matrix (Fin 3) (Fin 3) ℤ := Matrix.of fun i j => if i = k ∧ j = k then 1 else 0

theorem tetraStretch_eq (α γ : ℝ) (k : Fin 3) : tetraStretch α γ k = α • 1 + (γ - α) • toR (unitAt k) := by
  ext i j
  simp only [tetraStretch, unitAt, toR, Matrix.diagonal_apply, Matrix.add_apply, Matrix.smul_apply, Matrix.map_apply,
    Matrix.of_apply, Matrix.one_apply, smul_eq_mul]
  by_cases hij : i = j
  · subst hij
    by_cases hk : i = k <;> simp [hk]
  · have : ¬ (i = k ∧ j = k) := fun h => hij (h.1.trans h.2.symm)
    simp [hij, this]

theorem cubic_unitAt : ∀ R ∈ cubicLaue, ∀ k : Fin 3, ∃ k' : Fin 3, R * unitAt k * Rᵀ = unitAt k' := by
  unfold cubicLaue; decide +kernel

theorem cubic_transitive : ∀ k k' : Fin 3, ∃ R ∈ cubicLaue, R * unitAt k * Rᵀ = unitAt k' := by
  unfold cubicLaue; decide +kernel

theorem tetraStretch_turn {R : Matrix (Fin 3) (Fin 3) ℤ} (hR : R ∈ cubicLaue) {k k' : Fin 3}
    (h : R * unitAt k * Rᵀ = unitAt k') : toR R * tetraStretch α γ k * (toR R)ᵀ = tetraStretch α γ k' := by
  have h1 : toR R * (toR R)ᵀ = 1 := by rw [← toR_transpose, ← toR_mul, cubic_ortho R hR, toR_one]
  rw [tetraStretch_eq, tetraStretch_eq, mul_add, add_mul, Matrix.mul_smul, Matrix.smul_mul, Matrix.mul_one, h1,
    Matrix.mul_smul, Matrix.smul_mul, ← toR_transpose, ← toR_mul, ← toR_mul, h]

theorem tetraStretch_inj (h : α ≠ γ) {k k' : Fin 3} (he : tetraStretch α γ k = tetraStretch α γ k') : k = k' := by
  by_contra hk
  have := congrFun (congrFun he k) k
  simp [tetraStretch, hk] at this
  exact h this.symm

theorem tetraStretch_sep (h : ClearlyTetragonal α γ) (ht : t = .code ∨ t = .exact) (k k' : Fin 3) :
    allclose t (tetraStretch α γ k) (tetraStretch α γ k') ↔ tetraStretch α γ k = tetraStretch α γ k' := by
  rcases ht with rfl | rfl
  swap
  · exact allclose_exact _ _
  refine ⟨fun hc => ?_, fun he => he ▸ allclose_self tolOK_code _⟩
  by_contra hne
  have hk : k ≠ k' := fun hk => hne (hk ▸ rfl)
  obtain ⟨hα, hγ⟩ := clearly_pos h
  have c1 := hc k k
  have c2 := hc k' k'
  simp only [tetraStretch, diagonal_apply_eq, if_neg hk, if_true, if_neg hk.symm, Tol.code] at c1 c2
  rw [abs_of_pos hα] at c1
  rw [abs_of_pos hγ, abs_sub_comm] at c2
  obtain ⟨h1, h2, h | h⟩ := h
  · have := (neg_abs_le (γ - α))
    linarith
  · have := (le_abs_self (γ - α))
    linarith

theorem cubicR_sep (h : ClearlyTetragonal α γ) (ht : t = .code ∨ t = .exact) (k : Fin 3) : ∀ P ∈ cubicR, ∀ Q ∈ cubicR,
    allclose t (P * tetraStretch α γ k * Pᵀ) (Q * tetraStretch α γ k * Qᵀ) ↔
      P * tetraStretch α γ k * Pᵀ = Q * tetraStretch α γ k * Qᵀ := by
  intro P hP Q hQ
  obtain ⟨R, hR, rfl⟩ := List.mem_map.1 hP
  obtain ⟨S, hS, rfl⟩ := List.mem_map.1 hQ
  obtain ⟨k1, h1⟩ := cubic_unitAt R hR k
  obtain ⟨k2, h2⟩ := cubic_unitAt S hS k
  rw [tetraStretch_turn hR h1, tetraStretch_turn hS h2]
  exact tetraStretch_sep h ht k1 k2

/-- **C101**, variants: `getvariants()` of a martensite with a tetragonal stretch has three elements, the stretches
along the three cube axes, the given one first. -/
theorem C101_variants (ht : t = .code ∨ t = .exact) (h : ClearlyTetragonal α γ) (k : Fin 3) :
    ∃ vs, Mart.getVariants t ⟨some (tetraStretch α γ k), cubicR⟩ = .ok vs ∧ vs.length = 3 ∧ vs.Nodup ∧
      vs.head? = some (tetraStretch α γ k) ∧ ∀ V, V ∈ vs ↔ ∃ k', V = tetraStretch α γ k' := by
  have hs := variants_spec (t := t) cubicR_group cubicR_nodup cubicR_ortho (cubicR_sep h ht k)
  have horb : ∀ V, V ∈ (variantLoop t (tetraStretch α γ k) cubicR).1 ↔ ∃ k', V = tetraStretch α γ k' := by
    intro V
    rw [hs.orbit]
    constructor
    · rintro ⟨Q, hQ, rfl⟩
      obtain ⟨R, hR, rfl⟩ := List.mem_map.1 hQ
      obtain ⟨k', hk⟩ := cubic_unitAt R hR k
      exact ⟨k', tetraStretch_turn hR hk⟩
    · rintro ⟨k', rfl⟩
      obtain ⟨R, hR, hk⟩ := cubic_transitive k k'
      exact ⟨toR R, List.mem_map_of_mem hR, (tetraStretch_turn hR hk).symm⟩
  refine ⟨_, ?_, ?_, hs.nodup, hs.first, horb⟩
  · simp [Mart.getVariants, Mart.calcVariants, tetraStretch_reversible h k ht]
  · have hp : List.Perm (variantLoop t (tetraStretch α γ k) cubicR).1
        ((List.finRange 3).map (tetraStretch α γ)) := by
      refine (List.perm_ext_iff_of_nodup hs.nodup ?_).2 fun V => ?_
      · exact (List.nodup_map_iff fun _ _ => tetraStretch_inj (clearly_ne h)).2 (List.nodup_finRange 3)
      · rw [horb, List.mem_map]
        constructor
        · rintro ⟨k', rfl⟩; exact ⟨k', List.mem_finRange _, rfl⟩
        · rintro ⟨k', -, rfl⟩; exact ⟨k', rfl⟩
    simpa using hp.length_eq

/-! ### twins -/

theorem root_two : Real.sqrt 2 * Real.sqrt 2 = 2 := Real.mul_self_sqrt (by norm_num)

theorem diagonalNormal_unit {i j : Fin 3} (hij : i ≠ j) {σ : ℝ} (hσ : σ * σ = 1) :
    diagonalNormal i j σ ⬝ᵥ diagonalNormal i j σ = 1 := by
  obtain ⟨k, hi, hj, -, hs⟩ := third i j hij
  have h0 : Real.sqrt 2 ≠ 0 := by positivity
  rw [dotProduct, hs]
  simp only [diagonalNormal, if_true, if_neg hij.symm, if_neg hi, if_neg hj]
  field_simp
  nlinarith [root_two]

/-- the half turn about `eᵢ ± eⱼ` exchanges the two tetragonal axes -/
theorem diagonal_axis {i j : Fin 3} (hij : i ≠ j) {σ : ℝ} (hσ : σ = 1 ∨ σ = -1) :
    IsTwinAxis (tetraStretch α γ i) (tetraStretch α γ j) (diagonalNormal i j σ) := by
  have hσ2 : σ * σ = 1 := by rcases hσ with rfl | rfl <;> norm_num
  refine ⟨diagonalNormal_unit hij hσ2, ?_⟩
  set x := diagonalNormal i j σ with hx
  have hu := diagonalNormal_unit hij hσ2
  have hH : halfTurn x * (halfTurn x)ᵀ = 1 := (halfTurn_rotation hu).1
  have h0 : Real.sqrt 2 ≠ 0 := by positivity
  have hr := root_two
  -- the half turn maps the axis `i` to `σ` times the axis `j`
  have hcol : halfTurn x * toR (unitAt i) * (halfTurn x)ᵀ = toR (unitAt j) := by
    have he : toR (unitAt i) = vecMulVec (Pi.single i 1) (Pi.single i 1) := by
      ext a b
      simp only [toR, unitAt, Matrix.map_apply, Matrix.of_apply, vecMulVec_apply, Pi.single_apply]
      by_cases h1 : a = i <;> by_cases h2 : b = i <;> simp [h1, h2]
    have he' : toR (unitAt j) = vecMulVec (Pi.single j 1) (Pi.single j 1) := by
      ext a b
      simp only [toR, unitAt, Matrix.map_apply, Matrix.of_apply, vecMulVec_apply, Pi.single_apply]
      by_cases h1 : a = j <;> by_cases h2 : b = j <;> simp [h1, h2]
    have hm : halfTurn x *ᵥ Pi.single i 1 = σ • Pi.single j (1 : ℝ) := by
      funext l
      rw [mulVec_single_one, col_apply, halfTurn]
      simp only [Matrix.sub_apply, Matrix.smul_apply, vecMulVec_apply, Matrix.one_apply, smul_eq_mul, Pi.smul_apply,
        Pi.single_apply, hx, diagonalNormal]
      obtain ⟨k, hi, hj, hall, -⟩ := third i j hij
      rcases hall l with rfl | rfl | rfl
      · simp only [if_true, if_neg hij]
        field_simp
        nlinarith [root_two]
      · simp only [if_true, if_neg hij.symm]
        field_simp
        linear_combination -σ * hr
      · simp only [if_true, if_neg hi, if_neg hj]
        ring
    rw [he, he', mul_vecMulVec, vecMulVec_mul, ← mulVec_transpose, transpose_transpose, hm, smul_vecMulVec, vecMulVec_smul,
      smul_smul, hσ2, one_smul]
  rw [tetraStretch_eq, tetraStretch_eq, mul_add, add_mul, Matrix.mul_smul, Matrix.smul_mul, Matrix.mul_one, hH,
    Matrix.mul_smul, Matrix.smul_mul, hcol]

theorem tetraStretch_related {i j : Fin 3} (hij : i ≠ j) : Related (tetraStretch α γ i) (tetraStretch α γ j) := by
  have h := diagonal_axis (α := α) (γ := γ) hij (σ := 1) (.inl rfl)
  exact ⟨_, halfTurn_rotation h.1, h.2.symm⟩

theorem tetraStretch_connected (hα : 0 < α) (hγ : 0 < γ) {i j : Fin 3} (hij : i ≠ j) :
    RankOneConnected (tetraStretch α γ i) (tetraStretch α γ j) := by
  obtain ⟨Q, hQ⟩ := axis_solves (tetraStretch_spd hα hγ i) (diagonal_axis (α := α) (γ := γ) hij (σ := 1) (.inl rfl))
  exact ⟨Q, _, _, hQ.rotation, hQ.equation⟩

theorem tetraStretch_differ (h : ClearlyTetragonal α γ) {i j : Fin 3} (hij : i ≠ j) :
    ∃ l m, 1 / 10 ^ 12 ≤ |tetraStretch α γ i l m - tetraStretch α γ j l m| := by
  refine ⟨i, i, ?_⟩
  simp only [tetraStretch, diagonal_apply_eq, if_true, if_neg hij]
  exact le_trans (by norm_num) (clearly_gap h)

theorem tetraStretch_metric (hα : 0 < α) (hγ : 0 < γ) (i j : Fin 3) :
    ∃ d : Fin 3 → ℝ, relMetric (tetraStretch α γ i) (tetraStretch α γ j) = diagonal d := by
  rw [relMetric, tetraStretch_inv hα hγ, tetraStretch, diagonal_mul_diagonal, diagonal_mul_diagonal,
    diagonal_mul_diagonal]
  exact ⟨_, rfl⟩

theorem tetraStretch_clean (eig : Mat3 → EigRes) (heig : ∀ A, Aᵀ = A → EigOK (eig A).vals (eig A).vecs A)
    (h : ClearlyTetragonal α γ) {i j : Fin 3} (hij : i ≠ j) :
    Clean ⟨tetraStretch α γ i, tetraStretch α γ j,
      sortEig eig (relMetric (tetraStretch α γ i) (tetraStretch α γ j))⟩ := by
  intro r _ _
  obtain ⟨hα, hγ⟩ := clearly_pos h
  have hi := tetraStretch_spd hα hγ i
  have hj := tetraStretch_spd hα hγ j
  have hS := setup eig heig hi hj (tetraStretch_related hij) (tetraStretch_differ h hij) (tetraStretch_connected hα hγ hij)
  obtain ⟨d, hd⟩ := tetraStretch_metric hα hγ i j
  obtain ⟨he, -⟩ := sortEig_spec (heig _ (relMetric_symm hi.1 hj.1))
  change Setup _ _ (sortEig eig (relMetric (tetraStretch α γ i) (tetraStretch α γ j))) at hS
  set e := sortEig eig (relMetric (tetraStretch α γ i) (tetraStretch α γ j))
  have hvec := he.eigenvector
  rw [hd] at hvec
  have h1 : e.vals 1 = 1 := hS.frame.one
  have h2 : 1 < e.vals 2 := hS.frame.gt
  have h0 : e.vals 0 ≠ 1 := by
    intro h0
    have := hS.frame.prod
    rw [h0] at this
    linarith
  have zero : ∀ a b : Fin 3, e.vals a ≠ e.vals b → (tetraStretch α γ i *ᵥ e.vecs a) ⬝ᵥ (tetraStretch α γ i *ᵥ e.vecs b) = 0 := by
    intro a b hab
    refine Finset.sum_eq_zero fun l _ => ?_
    rw [tetraStretch, mulVec_diagonal, mulVec_diagonal]
    by_cases hl : d l = e.vals a
    · rw [diag_eigvec (hvec b) l (by rw [hl]; exact hab)]; ring
    · rw [diag_eigvec (hvec a) l hl]; ring
  show axTest (tetraStretch α γ i) e r = 0
  rw [axTest, zero 1 2 (by rw [h1]; exact h2.ne), zero 1 0 (by rw [h1]; exact h0.symm)]
  ring

theorem twin_orth {U V Q : Mat3} {a n : V3} (hU : IsSPD U) (hrel : Related U V)
    (h : SolvesTwin U V Q a n) : n ⬝ᵥ U⁻¹ *ᵥ a = 0 := by
  have hUd := (spd_det_pos hU).ne'
  have h1 := laminate_det hU hrel h 1
  have h2 : U + (1 : ℝ) • vecMulVec a n = U * (1 + vecMulVec (U⁻¹ *ᵥ a) n) := by
    rw [mul_add, Matrix.mul_one, mul_vecMulVec, mulVec_mulVec, mul_nonsing_inv _ hUd.isUnit, one_mulVec, one_smul]
  rw [h2, det_mul, det_one_add_dyad] at h1
  have : U.det * (n ⬝ᵥ (U⁻¹ *ᵥ a)) = 0 := by linear_combination h1
  exact (mul_eq_zero.1 this).resolve_left hUd

/-- Every solution of the twinning equation of two tetragonal variants has one of the two planes `eᵢ ± eⱼ` and the
shear belonging to it; the sign of both vectors can be changed. -/
theorem tetra_solutions (hα : 0 < α) (hγ : 0 < γ) (hne : α ≠ γ) {i j : Fin 3} (hij : i ≠ j) {Q : Mat3} {a n : V3}
    (h : SolvesTwin (tetraStretch α γ i) (tetraStretch α γ j) Q a n) :
    ∃ σ τ : ℝ, (σ = 1 ∨ σ = -1) ∧ (τ = 1 ∨ τ = -1) ∧ a = τ • diagonalShear α γ i j σ ∧ n = τ • diagonalNormal i j σ := by
  have hU := tetraStretch_spd hα hγ i
  have hV := tetraStretch_spd hα hγ j
  have hdet := twin_orth hU (tetraStretch_related hij) h
  obtain ⟨k, hi, hj, hall, hs⟩ := third i j hij
  have h1 := solvesTwin_sq hU.1 hV.1 h
  have hu := h.unit
  rw [dotProduct, hs] at hu
  rw [tetraStretch_inv hα hγ, dotProduct, hs] at hdet
  simp only [mulVec_diagonal, if_true, if_neg hij.symm, if_neg hi] at hdet
  have hc : ∀ l, (tetraStretch α γ i *ᵥ a) l = (if l = i then γ else α) * a l := fun l => by
    rw [tetraStretch, mulVec_diagonal]
  set c := tetraStretch α γ i *ᵥ a
  clear_value c
  rw [tetraStretch, tetraStretch, diagonal_mul_diagonal, diagonal_mul_diagonal] at h1
  set s := a ⬝ᵥ a
  have e : ∀ l m, (diagonal (fun l => (if l = j then γ else α) * (if l = j then γ else α)) : Mat3) l m =
      (diagonal (fun l => (if l = i then γ else α) * (if l = i then γ else α)) : Mat3) l m +
      (n l * c m + c l * n m + s * (n l * n m)) := by
    intro l m
    rw [h1]
    simp [vecMulVec_apply]
  have ekk := e k k
  have eki := e k i
  have eii := e i i
  have ejj := e j j
  have eij := e i j
  simp only [diagonal_apply_eq, diagonal_apply_ne _ hi, diagonal_apply_ne _ hij, if_true, if_neg hij, if_neg hij.symm,
    if_neg hi, if_neg hj] at ekk eki eii ejj eij
  have ci := hc i
  have cj := hc j
  have ck := hc k
  simp only [if_true, if_neg hij.symm, if_neg hi] at ci cj ck
  clear_value s
  clear e h1 hs hU hV
  set D := α ^ 2 - γ ^ 2 with hD
  have hD0 : D ≠ 0 := by
    intro h0
    have : (α - γ) * (α + γ) = 0 := by rw [hD] at h0; linear_combination h0
    rcases mul_eq_zero.1 this with h | h
    · exact hne (sub_eq_zero.1 h)
    · linarith
  have fkk : n k * (c k + s / 2 * n k) = 0 := by linear_combination -(1 / 2 : ℝ) * ekk
  have fki : n k * (c i + s / 2 * n i) + n i * (c k + s / 2 * n k) = 0 := by linear_combination -eki
  have fii : n i * (c i + s / 2 * n i) = D / 2 := by rw [hD]; linear_combination -(1 / 2 : ℝ) * eii
  have fjj : n j * (c j + s / 2 * n j) = -D / 2 := by rw [hD]; linear_combination -(1 / 2 : ℝ) * ejj
  have fij : n i * (c j + s / 2 * n j) + n j * (c i + s / 2 * n i) = 0 := by linear_combination -eij
  have nk : n k = 0 := sym_dyad fkk fki (by rw [fii]; exact div_ne_zero hD0 two_ne_zero)
  have hn2 : n i * n i = n j * n j := by
    have : (n i * n i - n j * n j) * (D / 2) = 0 := by
      linear_combination (-(n i * n j)) * fij + (n i * n i) * fjj + (n j * n j) * fii
    rcases mul_eq_zero.1 this with h | h
    · exact sub_eq_zero.1 h
    · exact absurd h (div_ne_zero hD0 two_ne_zero)
  have nii : n i * n i = 1 / 2 := by rw [nk] at hu; linarith
  have njj : n j * n j = 1 / 2 := by rw [← hn2]; exact nii
  have ni0 : n i ≠ 0 := by intro h0; rw [h0] at nii; norm_num at nii
  have dk : c k = 0 := by
    rw [nk] at fki
    have : n i * c k = 0 := by linear_combination fki
    exact (mul_eq_zero.1 this).resolve_left ni0
  have ak : a k = 0 := by
    rw [dk] at ck
    exact (mul_eq_zero.1 ck.symm).resolve_left hα.ne'
  have gi : γ * a i = (D - s / 2) * n i := by
    rw [← ci]; linear_combination 2 * n i * fii - 2 * (c i + s / 2 * n i) * nii
  have gj : α * a j = -(D + s / 2) * n j := by
    rw [← cj]; linear_combination 2 * n j * fjj - 2 * (c j + s / 2 * n j) * njj
  have hsum : α ^ 2 + γ ^ 2 ≠ 0 := by positivity
  have hs2 : s / 2 = D * (D / (α ^ 2 + γ ^ 2)) := by
    rw [nk] at hdet
    have h3 : α ^ 2 * ((D - s / 2) * (n i * n i)) - γ ^ 2 * ((D + s / 2) * (n j * n j)) = 0 := by
      have e1 : n i * (γ⁻¹ * a i) = (n i * (γ * a i)) / γ ^ 2 := by field_simp
      have e2 : n j * (α⁻¹ * a j) = (n j * (α * a j)) / α ^ 2 := by field_simp
      rw [e1, e2, gi, gj] at hdet
      have h5 : n i * ((D - s / 2) * n i) / γ ^ 2 + n j * (-(D + s / 2) * n j) / α ^ 2 = 0 := by linear_combination hdet
      rw [div_add_div _ _ (by positivity) (by positivity), div_eq_zero_iff] at h5
      rcases h5 with h5 | h5
      · linear_combination h5
      · exact absurd h5 (by positivity)
    rw [nii, njj] at h3
    have h4 : s / 2 * (α ^ 2 + γ ^ 2) = D * D := by rw [hD] at h3 ⊢; linear_combination -2 * h3
    rw [← mul_div_assoc, eq_div_iff hsum, h4]
  have hr := root_two
  have hr0 : Real.sqrt 2 ≠ 0 := by positivity
  refine ⟨2 * n i * n j, Real.sqrt 2 * n i, ?_, ?_, ?_, ?_⟩
  · apply mul_self_eq_one_iff.1
    linear_combination 4 * n i * n i * njj + 2 * nii
  · apply mul_self_eq_one_iff.1
    linear_combination n i * n i * hr + 2 * nii
  · funext l
    simp only [Pi.smul_apply, smul_eq_mul, diagonalShear]
    rw [← hD]
    rcases hall l with rfl | rfl | rfl
    · simp only [if_true]
      apply mul_left_cancel₀ hγ.ne'
      rw [gi, hs2]
      have : D - D * (D / (α ^ 2 + γ ^ 2)) = 2 * γ ^ 2 * (D / (α ^ 2 + γ ^ 2)) := by
        rw [hD]; field_simp; ring
      rw [this]
      linear_combination (-(n l * (D / (α ^ 2 + γ ^ 2)) * γ ^ 2)) * hr
    · simp only [if_true, if_neg hij.symm]
      apply mul_left_cancel₀ hα.ne'
      rw [gj, hs2]
      have : D + D * (D / (α ^ 2 + γ ^ 2)) = 2 * α ^ 2 * (D / (α ^ 2 + γ ^ 2)) := by
        rw [hD]; field_simp; ring
      rw [this]
      linear_combination (2 * n l * (D / (α ^ 2 + γ ^ 2)) * α ^ 2 * (n i * n i)) * hr +
        (4 * n l * (D / (α ^ 2 + γ ^ 2)) * α ^ 2) * nii
    · simp only [if_neg hi, if_neg hj, ak]
      ring
  · funext l
    simp only [Pi.smul_apply, smul_eq_mul, diagonalNormal]
    rcases hall l with rfl | rfl | rfl
    · simp only [if_true]
      field_simp
    · simp only [if_true, if_neg hij.symm]
      field_simp
      linear_combination -2 * n l * nii
    · simp only [if_neg hi, if_neg hj, nk]
      ring

theorem sols_orth {U V : Mat3} (hU : IsSPD U) {e : V3} (he : e ⬝ᵥ e = 1) {x y : TwinSol}
    (hx : twinSol1 id U V e = some x) (hy : twinSol2 id U V e = some y) : x.2.2 ⬝ᵥ y.2.2 = 0 := by
  classical
  have hden : (U *ᵥ e) ⬝ᵥ (U *ᵥ e) ≠ 0 := fun h =>
    mulVec_ne (spd_det_pos hU).ne' (unit_ne he) (dotProduct_self_eq_zero.1 h)
  unfold twinSol1 at hx
  unfold twinSol2 at hy
  simp only [id] at hx hy
  split_ifs at hx hy
  cases hx
  cases hy
  simp only
  rw [vnorm_unit he]
  have : (fun i => ((1 : ℝ)⁻¹ • e) i) = e := by simp
  rw [this]
  show e ⬝ᵥ (_ • _) = 0
  rw [dotProduct_smul, dotProduct_smul, dotProduct_sub, he, dotProduct_smul, sym_dot hU.1 e (U *ᵥ e), smul_eq_mul,
    smul_eq_mul, smul_eq_mul, inv_mul_cancel₀ hden]
  simp

theorem twinSol1_rnd (rnd : ℝ → ℝ) (U V : Mat3) (e : V3) : twinSol1 rnd U V e =
    (twinSol1 id U V e).map fun x =>
      ((U + outer (fun l => rnd (x.2.1 l)) fun l => rnd (x.2.2 l)) * V⁻¹, (fun l => rnd (x.2.1 l)), fun l => rnd (x.2.2 l)) := by
  classical
  unfold twinSol1
  simp only [id]
  split_ifs <;> rfl

theorem twinSol2_rnd (rnd : ℝ → ℝ) (U V : Mat3) (e : V3) : twinSol2 rnd U V e =
    (twinSol2 id U V e).map fun x =>
      ((U + outer (fun l => rnd (x.2.1 l)) fun l => rnd (x.2.2 l)) * V⁻¹, (fun l => rnd (x.2.1 l)), fun l => rnd (x.2.2 l)) := by
  classical
  unfold twinSol2
  simp only [id]
  split_ifs <;> rfl

theorem roundedTwin_id {U V Q : Mat3} {a n : V3} (hV : IsSPD V) (h : RoundedTwin id U V Q a n) : SolvesTwin U V Q a n := by
  obtain ⟨Q', a', n', h, ha, hn, hq⟩ := h
  obtain rfl : a = a' := funext ha
  obtain rfl : n = n' := funext hn
  have e : Q * V = Q' * V := sub_left_injective (hq.trans h.equation.symm)
  have : Q = Q' := by
    have hu := isUnit_iff_ne_zero.2 (spd_det_pos hV).ne'
    calc Q = Q * V * V⁻¹ := by rw [Matrix.mul_assoc, mul_nonsing_inv _ hu, Matrix.mul_one]
      _ = Q' := by rw [e, Matrix.mul_assoc, mul_nonsing_inv _ hu, Matrix.mul_one]
  rw [this]
  exact h

theorem solves_rotation {U V Q : Mat3} {a n : V3} (hV : IsSPD V) (h : SolvesTwin U V Q a n) :
    Q = (U + outer a n) * V⁻¹ := by
  have hu := isUnit_iff_ne_zero.2 (spd_det_pos hV).ne'
  have e : U + outer a n = Q * V := by rw [outer_eq, ← h.equation]; abel
  rw [e, Matrix.mul_assoc, mul_nonsing_inv _ hu, Matrix.mul_one]

theorem diagonal_pm {i j : Fin 3} (hij : i ≠ j) : diagonalNormal i j (-1) ≠ diagonalNormal i j 1 ∧
    diagonalNormal i j (-1) ≠ -diagonalNormal i j 1 := by
  have h2 : (0 : ℝ) < Real.sqrt 2 := by positivity
  constructor
  · intro h
    have := congrFun h j
    simp only [diagonalNormal, if_true, if_neg hij.symm] at this
    rw [div_left_inj' h2.ne'] at this
    norm_num at this
  · intro h
    have := congrFun h i
    simp only [diagonalNormal, if_true, Pi.neg_apply, ← neg_div] at this
    rw [div_left_inj' h2.ne'] at this
    norm_num at this

/-- **C101**, twins: any two of the three variants are twinnable, the pair is compound, and `twinparam()` returns the
two solutions with the planes `eᵢ + eⱼ` and `eᵢ - eⱼ` and the shears `√2 (α² - γ²) / (α² + γ²) (γ eᵢ ∓ α eⱼ)`, up to
their order, a common change of sign of plane and shear, and the rounding to ten digits (`rnd`); without the
rounding the twinning equation is solved exactly. -/
theorem C101_twins (eig : Mat3 → EigRes) (heig : ∀ A, Aᵀ = A → EigOK (eig A).vals (eig A).vecs A)
    (ht : t = .code ∨ t = .exact) (rnd : ℝ → ℝ) (h : ClearlyTetragonal α γ) {i j : Fin 3} (hij : i ≠ j) (skip : Bool) :
    ∃ p Q₁ Q₂, ∃ σ τ₁ τ₂ : ℝ, TwinPair.new eig (tetraStretch α γ i) (tetraStretch α γ j) skip = .ok p ∧
      p.isTwinnable = true ∧ p.isCompound = .ok true ∧ p.isTypeI = .ok false ∧
      (σ = 1 ∨ σ = -1) ∧ (τ₁ = 1 ∨ τ₁ = -1) ∧ (τ₂ = 1 ∨ τ₂ = -1) ∧
      p.twinParam eig t rnd false = .ok (some
        (some (Q₁, (fun l => rnd (τ₁ * diagonalShear α γ i j σ l)), fun l => rnd (τ₁ * diagonalNormal i j σ l)),
         some (Q₂, (fun l => rnd (τ₂ * diagonalShear α γ i j (-σ) l)), fun l => rnd (τ₂ * diagonalNormal i j (-σ) l)))) ∧
      (rnd = id →
        SolvesTwin (tetraStretch α γ i) (tetraStretch α γ j) Q₁ (τ₁ • diagonalShear α γ i j σ) (τ₁ • diagonalNormal i j σ) ∧
        SolvesTwin (tetraStretch α γ i) (tetraStretch α γ j) Q₂ (τ₂ • diagonalShear α γ i j (-σ))
          (τ₂ • diagonalNormal i j (-σ))) := by
  obtain ⟨hα, hγ⟩ := clearly_pos h
  have hU := tetraStretch_spd hα hγ i
  have hV := tetraStretch_spd hα hγ j
  have hrel := tetraStretch_related (α := α) (γ := γ) hij
  have hd := tetraStretch_differ h hij
  have hc := tetraStretch_connected hα hγ hij
  have hUV : tetraStretch α γ i ≠ tetraStretch α γ j := fun he => hij (tetraStretch_inj (clearly_ne h) he)
  obtain ⟨vs, hvs, -, -, -, hmem⟩ := C101_variants ht h i
  have hcl := tetraStretch_clean eig heig h hij
  obtain ⟨p, hp, hcomp⟩ := C69_compound eig heig _ _ hU hV hrel hd hc skip
  obtain ⟨p', l, hp', hl, hne, -, hax⟩ := C69_axes eig heig _ _ hU hV hrel hd hc skip
  have hn := new_ok eig hU hV skip
  have hS := setup eig heig hU hV hrel hd hc
  rw [hn] at hp hp'
  cases hp
  cases hp'
  obtain ⟨b, hb1, hb2, hb3⟩ := hcomp hcl
  have hb : b = true := hb3.2 ⟨_, _, diagonal_axis hij (.inl rfl), diagonal_axis hij (.inr rfl), (diagonal_pm hij).1,
    (diagonal_pm hij).2⟩
  subst hb
  cases l with
  | nil => exact absurd rfl hne
  | cons x xs =>
    obtain ⟨e, rfl, he⟩ := hax hcl x (by simp)
    obtain ⟨x, hx, hx'⟩ := first_solution hU (spd_det_pos hV).ne' he id
    obtain ⟨y, hy, hy'⟩ := second_solution hU hV hUV he id
    have ho := sols_orth hU he.1 hx hy
    obtain ⟨Q₁, a₁, n₁⟩ := x
    obtain ⟨Q₂, a₂, n₂⟩ := y
    replace hx' := roundedTwin_id hV hx'
    replace hy' := roundedTwin_id hV hy'
    simp only at hx' hy' ho
    obtain ⟨σ, τ₁, hσ, hτ₁, ha₁, hn₁⟩ := tetra_solutions hα hγ (clearly_ne h) hij hx'
    obtain ⟨σ', τ₂, hσ', hτ₂, ha₂, hn₂⟩ := tetra_solutions hα hγ (clearly_ne h) hij hy'
    have hσσ : σ' = -σ := by
      have : σ' ≠ σ := by
        rintro rfl
        rw [hn₁, hn₂, smul_dotProduct, dotProduct_smul, diagonalNormal_unit hij (by rcases hσ with h | h <;> rw [h] <;> norm_num)]
          at ho
        rcases hτ₁ with h1 | h1 <;> rcases hτ₂ with h2 | h2 <;> rw [h1, h2] at ho <;> norm_num at ho
      rcases hσ with h1 | h1 <;> rcases hσ' with h2 | h2 <;>
        first | exact absurd (h2.trans h1.symm) this | simp [h1, h2]
    subst hσσ
    have hunit : unitVec e = some e := unitVec_of_isDirection ⟨he.1, 1, one_pos, (one_smul _ _).symm⟩
    have hv : isVariant t (tetraStretch α γ i) (some (tetraStretch α γ j)) = .ok true := by
      unfold isVariant
      rw [hvs]
      simp only [Except.ok.injEq]
      rw [List.any_eq_true]
      refine ⟨_, (hmem _).2 ⟨j, rfl⟩, decide_eq_true ?_⟩
      rw [sub_self, fnorm]
      norm_num [small]
    refine ⟨_, (tetraStretch α γ i + outer (fun l => rnd (τ₁ * diagonalShear α γ i j σ l))
      fun l => rnd (τ₁ * diagonalNormal i j σ l)) * (tetraStretch α γ j)⁻¹,
      (tetraStretch α γ i + outer (fun l => rnd (τ₂ * diagonalShear α γ i j (-σ) l))
      fun l => rnd (τ₂ * diagonalNormal i j (-σ) l)) * (tetraStretch α γ j)⁻¹, σ, τ₁, τ₂, hn, hS.twinnable, hb1, hb2, hσ, hτ₁, hτ₂, ?_, ?_⟩
    · unfold TwinPair.twinParam
      rw [if_neg (by rw [hS.twinnable]; simp), hl]
      simp only [List.head?_cons]
      unfold solveTwin
      simp only [Option.bind_some, hunit, Option.map_some, r180_eq, he.2, hv]
      rw [if_neg (by simp), if_neg (spd_det_pos hU).ne', if_neg (spd_det_pos hV).ne', twinSol1_rnd, twinSol2_rnd, hx, hy]
      simp only [Option.map_some, ha₁, hn₁, ha₂, hn₂, Pi.smul_apply, smul_eq_mul]
    · rintro rfl
      have e1 := solves_rotation hV hx'
      have e2 := solves_rotation hV hy'
      rw [e1, ha₁, hn₁] at hx'
      rw [e2, ha₂, hn₂] at hy'
      exact ⟨hx', hy'⟩

/-- **C101**, through the API: `Martensite().setU(α, γ)` succeeds, and the three variants of the result are the
stretches along the three cube axes. -/
theorem C101_setU (ht : t = .code ∨ t = .exact) (h : ClearlyTetragonal α γ) :
    ∃ m vs, Mart.setU ⟨none, cubicR⟩ [.num α, .num γ] = .ok m ∧ m.getU = .ok (tetraStretch α γ 2) ∧
      m.getVariants t = .ok vs ∧ vs.length = 3 ∧ vs.Nodup ∧ ∀ V, V ∈ vs ↔ ∃ k, V = tetraStretch α γ k := by
  obtain ⟨hα, hγ⟩ := clearly_pos h
  obtain ⟨vs, h1, h2, h3, -, h4⟩ := C101_variants ht h 2
  have hU : diagonal ![α, α, γ] = tetraStretch α γ 2 := by
    rw [tetraStretch]
    congr 1
    funext i
    fin_cases i <;> rfl
  have hs := tetraStretch_spd hα hγ 2
  refine ⟨⟨some (tetraStretch α γ 2), cubicR⟩, vs, ?_, rfl, h1, h2, h3, h4⟩
  simp only [Mart.setU, uOf, hU]
  rw [if_neg (not_not.2 hs.1.symm), if_neg (not_not.2 (spd_det_pos hs))]

-- a stretch of 2 per cent, as in In-Tl alloys, meets the hypothesis
example : ClearlyTetragonal (0.9889 : ℝ) 1.0221 := by
  refine ⟨by norm_num, by norm_num, .inr ⟨by norm_num, by norm_num⟩⟩

end Verif.Props
