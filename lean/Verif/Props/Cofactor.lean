import Verif.Props.TetraTwin
import Verif.Props.Complete
import Verif.Spec.Cofactor

/-!
# C74: the cofactor conditions
-/

namespace Verif.Props

open Matrix Verif.Model Verif.Spec Verif.Lemmas

local notation "Mat3" => Matrix (Fin 3) (Fin 3) ℝ

/-! ### the cofactor matrix of a singular symmetric matrix -/

/-- If `A v = 0` for a unit vector `v`, the cofactor matrix of a symmetric `A` is a multiple of `v ⊗ v`. -/
theorem adjugate_kernel {A : Mat3} (hA : Aᵀ = A) {v : V3} (hv : A *ᵥ v = 0) (hu : v ⬝ᵥ v = 1) :
    ∃ k : ℝ, A.adjugate = k • vecMulVec v v := by
  have h01 : A 1 0 = A 0 1 := congrFun (congrFun hA 0) 1
  have h02 : A 2 0 = A 0 2 := congrFun (congrFun hA 0) 2
  have h12 : A 2 1 = A 1 2 := congrFun (congrFun hA 1) 2
  have r0 := congrFun hv 0
  have r1 := congrFun hv 1
  have r2 := congrFun hv 2
  simp only [mulVec, dotProduct, Fin.sum_univ_three, Pi.zero_apply] at r0 r1 r2
  rw [Lemmas.dot3] at hu
  have key : ∀ i j k, A.adjugate i j * v k = A.adjugate k j * v i := by
    intro i j k
    rw [adjugate_fin_three]
    fin_cases i <;> fin_cases j <;> fin_cases k <;> simp <;> grind
  have hs : ∀ i j, A.adjugate i j = A.adjugate j i := by
    intro i j
    have : (A.adjugate)ᵀ = A.adjugate := by rw [adjugate_transpose, hA]
    exact congrFun (congrFun this.symm i) j
  have e1 : ∀ i j, A.adjugate i j = v i * (A.adjugate 0 j * v 0 + A.adjugate 1 j * v 1 + A.adjugate 2 j * v 2) := by
    intro i j
    linear_combination -A.adjugate i j * hu + v 0 * key i j 0 + v 1 * key i j 1 + v 2 * key i j 2
  refine ⟨v ⬝ᵥ A.adjugate *ᵥ v, ?_⟩
  ext i j
  rw [Matrix.smul_apply, vecMulVec_apply, smul_eq_mul, Lemmas.dot3]
  simp only [mulVec, dotProduct, Fin.sum_univ_three]
  have a0 := e1 j 0
  have a1 := e1 j 1
  have a2 := e1 j 2
  rw [hs j] at a0 a1 a2
  linear_combination e1 i j + v i * (v 0 * a0 + v 1 * a1 + v 2 * a2)

/-- If moreover the cofactor matrix vanishes there is a second direction in the kernel. -/
theorem kernel_two {A : Mat3} {v : V3} (hv : A *ᵥ v = 0) (hu : v ⬝ᵥ v = 1)
    (h : A.adjugate = 0) : ∃ w, A *ᵥ w = 0 ∧ w ⬝ᵥ w = 1 ∧ v ⬝ᵥ w = 0 := by
  suffices ∃ w, A *ᵥ w = 0 ∧ w ≠ 0 ∧ v ⬝ᵥ w = 0 by
    obtain ⟨w, h1, h2, h3⟩ := this
    obtain ⟨z, hz⟩ : ∃ z, unitVec w = some z := Option.ne_none_iff_exists'.1 fun h => h2 ((unitVec_none w).1 h)
    obtain ⟨z1, z2, z3⟩ := unitVec_some hz
    refine ⟨z, ?_, z1, ?_⟩
    · rw [z3, mulVec_smul] at h1
      exact (smul_eq_zero.1 h1).resolve_left z2.ne'
    · rw [z3, dotProduct_smul, smul_eq_mul] at h3
      exact (mul_eq_zero.1 h3).resolve_left z2.ne'
  have hr : ∀ i, A i ⬝ᵥ v = 0 := fun i => congrFun hv i
  have hcross : ∀ i j, A i ⨯₃ A j = 0 := by
    intro i j
    have k := fun a b => congrFun (congrFun h a) b
    have k00 := k 0 0; have k01 := k 0 1; have k02 := k 0 2
    have k10 := k 1 0; have k11 := k 1 1; have k12 := k 1 2
    have k20 := k 2 0; have k21 := k 2 1; have k22 := k 2 2
    clear k
    rw [adjugate_fin_three] at k00 k01 k02 k10 k11 k12 k20 k21 k22
    simp at k00 k01 k02 k10 k11 k12 k20 k21 k22
    ext l
    fin_cases i <;> fin_cases j <;> fin_cases l <;> simp [cross_apply] <;> linarith
  by_cases h0 : ∃ i, A i ≠ 0
  · obtain ⟨i, hi⟩ := h0
    refine ⟨A i ⨯₃ v, ?_, ?_, ?_⟩
    · funext j
      change A j ⬝ᵥ (A i ⨯₃ v) = 0
      have := hcross j i
      rw [triple_product_permutation, triple_product_permutation, this]
      simp
    · intro hc
      have e := cross_dot_cross (A i) v (A i) v
      rw [hc, hr, hu] at e
      simp at e
      exact hi (dotProduct_self_eq_zero.1 e.symm)
    · rw [dot_cross_self]
  · push Not at h0
    have hA0 : A = 0 := funext h0
    obtain ⟨x, hx⟩ : ∃ x : V3, x ⨯₃ v ≠ 0 := by
      by_contra hc
      push Not at hc
      have e := cross_dot_cross ![1, 0, 0] v ![1, 0, 0] v
      have e' := cross_dot_cross ![0, 1, 0] v ![0, 1, 0] v
      rw [hc, hu] at e e'
      rw [Lemmas.dot3] at hu
      simp [vecHead, vecTail] at e e'
      nlinarith [sq_nonneg (v 2)]
    exact ⟨x ⨯₃ v, by simp [hA0], hx, dot_cross_self _ _⟩

/-! ### unstretched directions and axes -/

theorem spd_unstretched {U : Mat3} (hU : IsSPD U) {w : V3} (h : (U * U - 1) *ᵥ w = 0) : U *ᵥ w = w := by
  have h1 : U *ᵥ (U *ᵥ w - w) = -(U *ᵥ w - w) := by
    have : U *ᵥ (U *ᵥ w) = w := by
      rw [sub_mulVec, one_mulVec, ← mulVec_mulVec] at h
      exact sub_eq_zero.1 h
    rw [mulVec_sub, this]
    abel
  by_contra hne
  have h2 := hU.2 (U *ᵥ w - w) (sub_ne_zero.2 hne)
  rw [h1, dotProduct_neg] at h2
  have : 0 ≤ (U *ᵥ w - w) ⬝ᵥ (U *ᵥ w - w) := Finset.sum_nonneg fun i _ => mul_self_nonneg _
  linarith

theorem unstretched_sq {U : Mat3} {w : V3} (h : U *ᵥ w = w) : (U * U - 1) *ᵥ w = 0 := by
  rw [sub_mulVec, one_mulVec, ← mulVec_mulVec, h, h, sub_self]

theorem unstretched_iff {U : Mat3} (hU : IsSPD U) : HasUnstretched U ↔ (U * U - 1).det = 0 := by
  rw [← exists_mulVec_eq_zero_iff]
  exact ⟨fun ⟨v, h1, h2⟩ => ⟨v, h1, unstretched_sq h2⟩, fun ⟨v, h1, h2⟩ => ⟨v, h1, spd_unstretched hU h2⟩⟩

theorem fits_iff {U : Mat3} (hU : Uᵀ = U) (a n : V3) (f : ℝ) : LaminateFits U a n f ↔ interfaceDet U a n f = 0 := by
  rw [interfaceDet, ← exists_mulVec_eq_zero_iff]
  have e : (U + f • vecMulVec a n)ᵀ = U + f • vecMulVec n a := by
    rw [transpose_add, hU, transpose_smul, transpose_vecMulVec]
  simp only [LaminateFits, e, sub_mulVec, one_mulVec, sub_eq_zero]

theorem cross_outer (e v : V3) (i j : Fin 3) : (e ⨯₃ v) i * (e ⨯₃ v) j =
    ((e ⬝ᵥ e) * (v ⬝ᵥ v) - (e ⬝ᵥ v) ^ 2) * (1 : Mat3) i j - (v ⬝ᵥ v) * (e i * e j) - (e ⬝ᵥ e) * (v i * v j) +
      (e ⬝ᵥ v) * (e i * v j + v i * e j) := by
  simp only [Lemmas.dot3, cross_apply]
  fin_cases i <;> fin_cases j <;> simp <;> ring

/-- A half turn about an unstretched direction does not change the stretch. -/
theorem halfTurn_unstretched {U : Mat3} (hU : Uᵀ = U) {v : V3} (hv : U *ᵥ v = v) (hu : v ⬝ᵥ v = 1) :
    halfTurn v * U * (halfTurn v)ᵀ = U := by
  have h1 : halfTurn v * U = U * halfTurn v := by
    rw [halfTurn, sub_mul, mul_sub, one_mul, mul_one, smul_mul_assoc, mul_smul_comm, mul_vecMulVec, hv,
      vecMulVec_mul, ← mulVec_transpose, hU, hv]
  rw [h1, Matrix.mul_assoc, halfTurn_symm, halfTurn_sq hu, Matrix.mul_one]

/-- If the axis of the half turn is perpendicular to an unstretched direction, there is a second axis. -/
theorem second_axis {U V : Mat3} (hU : Uᵀ = U) {e v : V3} (he : IsTwinAxis U V e) (hv : U *ᵥ v = v)
    (hu : v ⬝ᵥ v = 1) (hev : e ⬝ᵥ v = 0) :
    ∃ e', IsTwinAxis U V e' ∧ e' ≠ e ∧ e' ≠ -e := by
  have hw : (e ⨯₃ v) ⬝ᵥ (e ⨯₃ v) = 1 := by
    rw [cross_dot_cross, he.1, hu, hev, dotProduct_comm v e, hev]; ring
  have hp : halfTurn (e ⨯₃ v) = halfTurn e * halfTurn v := by
    rw [halfTurn, halfTurn, halfTurn, sub_mul, mul_sub, one_mul, mul_one, smul_mul_smul_comm, vecMulVec_mul_vecMulVec, hev]
    ext i j
    simp only [Matrix.sub_apply, Matrix.smul_apply, vecMulVec_apply, smul_eq_mul, cross_outer, he.1, hu, hev,
      Pi.smul_apply]
    ring
  have hperp : e ⬝ᵥ (e ⨯₃ v) = 0 := dot_self_cross _ _
  refine ⟨e ⨯₃ v, ⟨hw, ?_⟩, ?_, ?_⟩
  · rw [hp, transpose_mul, ← he.2]
    calc halfTurn e * halfTurn v * U * ((halfTurn v)ᵀ * (halfTurn e)ᵀ) =
        halfTurn e * (halfTurn v * U * (halfTurn v)ᵀ) * (halfTurn e)ᵀ := by simp only [Matrix.mul_assoc]
      _ = _ := by rw [halfTurn_unstretched hU hv hu]
  · intro h
    rw [h, he.1] at hperp
    exact one_ne_zero hperp
  · intro h
    rw [h, dotProduct_neg, he.1] at hperp
    norm_num at hperp

/-- If there is one axis only, an unstretched direction is not perpendicular to it, and the cofactor matrix of
`U² - I` is a non-zero multiple of its square. -/
theorem single_axis {U V : Mat3} (hU : IsSPD U) {e : V3} (he : IsTwinAxis U V e)
    (hone : ∀ e', IsTwinAxis U V e' → e' = e ∨ e' = -e) {v : V3} (hv : U *ᵥ v = v) (hu : v ⬝ᵥ v = 1) :
    e ⬝ᵥ v ≠ 0 ∧ ∃ k : ℝ, k ≠ 0 ∧ (U * U - 1).adjugate = k • vecMulVec v v := by
  have perp : ∀ x, U *ᵥ x = x → x ⬝ᵥ x = 1 → e ⬝ᵥ x ≠ 0 := by
    intro x hx hxu h0
    obtain ⟨e', h1, h2, h3⟩ := second_axis hU.1 he hx hxu h0
    rcases hone e' h1 with h | h
    · exact h2 h
    · exact h3 h
  have hA : (U * U - 1)ᵀ = U * U - 1 := by rw [transpose_sub, transpose_mul, hU.1, transpose_one]
  refine ⟨perp v hv hu, ?_⟩
  obtain ⟨k, hk⟩ := adjugate_kernel hA (unstretched_sq hv) hu
  refine ⟨k, ?_, hk⟩
  rintro rfl
  rw [zero_smul] at hk
  obtain ⟨w, w1, w2, w3⟩ := kernel_two (unstretched_sq hv) hu hk
  have hw := spd_unstretched hU w1
  -- a combination of the two unstretched directions is perpendicular to the axis
  set α := e ⬝ᵥ v with hα
  set β := e ⬝ᵥ w with hβ
  have ha : α ≠ 0 := perp v hv hu
  have hpos : 0 < α * α + β * β := add_pos_of_pos_of_nonneg (mul_self_pos.2 ha) (mul_self_nonneg β)
  set r := Real.sqrt (α * α + β * β) with hr
  have hrr : r * r = α * α + β * β := Real.mul_self_sqrt hpos.le
  have hr0 : r ≠ 0 := (Real.sqrt_pos.2 hpos).ne'
  refine perp (r⁻¹ • (β • v - α • w)) ?_ ?_ ?_
  · rw [mulVec_smul, mulVec_sub, mulVec_smul, mulVec_smul, hv, hw]
  · simp only [smul_dotProduct, dotProduct_smul, sub_dotProduct, dotProduct_sub, hu, w2, w3, dotProduct_comm w v,
      smul_eq_mul]
    field_simp
    linear_combination -hrr
  · rw [dotProduct_smul, dotProduct_sub, dotProduct_smul, dotProduct_smul, ← hα, ← hβ, smul_eq_mul, smul_eq_mul,
      smul_eq_mul]
    ring

/-! ### the values of `direct_cof` -/

theorem cofVal_kernel {U : Mat3} {v : V3} {k : ℝ} (hk : (U * U - 1).adjugate = k • vecMulVec v v) (a n : V3) :
    cofVal U a n = k * (v ⬝ᵥ n) * (v ⬝ᵥ U *ᵥ a) := by
  rw [cofVal_eq, hk, transpose_smul, transpose_vecMulVec, smul_mulVec, vecMulVec_mulVec, dotProduct_smul,
    dotProduct_comm (U *ᵥ a)]
  simp only [smul_dotProduct, smul_eq_mul, op_smul_eq_smul]
  ring

theorem move_sym {U : Mat3} (hU : Uᵀ = U) {v : V3} (hv : U *ᵥ v = v) (x : V3) : v ⬝ᵥ U *ᵥ x = v ⬝ᵥ x := by
  rw [dotProduct_mulVec, ← mulVec_transpose, hU, hv]

theorem sq_eq_one_iff' {x : ℝ} (hx : 0 ≤ x) : Real.sqrt x = 1 ↔ x = 1 := by
  constructor
  · intro h
    have := Real.mul_self_sqrt hx
    rw [h] at this
    linarith
  · rintro rfl; exact Real.sqrt_one

/-- The first solution: the cofactor value vanishes iff `|U⁻¹ e| = 1`. -/
theorem cof_first {U V : Mat3} (hU : IsSPD U) {e : V3} (he : IsTwinAxis U V e)
    {v : V3} (hv : U *ᵥ v = v) (hev : e ⬝ᵥ v ≠ 0) {k : ℝ} (hk0 : k ≠ 0)
    (hk : (U * U - 1).adjugate = k • vecMulVec v v) {x : TwinSol} (hx : twinSol1 id U V e = some x) :
    -cofVal U x.2.1 x.2.2 = 0 ↔ vnorm (U⁻¹ *ᵥ e) = 1 := by
  have hUd := (spd_det_pos hU).ne'
  have hg : U *ᵥ (U⁻¹ *ᵥ e) = e := by
    rw [mulVec_mulVec, mul_nonsing_inv _ (isUnit_iff_ne_zero.2 hUd), one_mulVec]
  have hden : (U⁻¹ *ᵥ e) ⬝ᵥ (U⁻¹ *ᵥ e) ≠ 0 := fun h =>
    mulVec_ne (inv_det_ne hUd) (unit_ne he.1) (dotProduct_self_eq_zero.1 h)
  have hve : v ⬝ᵥ e ≠ 0 := by rwa [dotProduct_comm]
  unfold twinSol1 at hx
  simp only at hx
  rw [if_neg hden, vnorm_unit he.1, if_neg one_ne_zero] at hx
  cases hx
  have hvn : ∀ x : V3, vnorm x = 1 ↔ x ⬝ᵥ x = 1 := fun x =>
    sq_eq_one_iff' (Finset.sum_nonneg fun i _ => mul_self_nonneg _)
  rw [hvn]
  simp only [id, inv_one, one_smul]
  rw [cofVal_kernel hk]
  have e1 : (fun i => e i) = e := rfl
  have e2 : v ⬝ᵥ U *ᵥ (fun i => ((2 : ℝ) • (((U⁻¹ *ᵥ e) ⬝ᵥ (U⁻¹ *ᵥ e))⁻¹ • U⁻¹ *ᵥ e - U *ᵥ e)) i) =
      2 * ((((U⁻¹ *ᵥ e) ⬝ᵥ (U⁻¹ *ᵥ e))⁻¹ - 1) * (v ⬝ᵥ e)) := by
    change v ⬝ᵥ U *ᵥ ((2 : ℝ) • (((U⁻¹ *ᵥ e) ⬝ᵥ (U⁻¹ *ᵥ e))⁻¹ • U⁻¹ *ᵥ e - U *ᵥ e)) = _
    rw [mulVec_smul, mulVec_sub, mulVec_smul, hg, dotProduct_smul, dotProduct_sub, dotProduct_smul,
      move_sym hU.1 hv, move_sym hU.1 hv, smul_eq_mul, smul_eq_mul]
    ring
  rw [e1, e2, neg_eq_zero]
  constructor
  · intro h
    have : ((U⁻¹ *ᵥ e) ⬝ᵥ (U⁻¹ *ᵥ e))⁻¹ - 1 = 0 := by
      rcases mul_eq_zero.1 h with h | h
      · rcases mul_eq_zero.1 h with h | h
        · exact absurd h hk0
        · exact absurd h hve
      · rcases mul_eq_zero.1 h with h | h
        · norm_num at h
        · exact (mul_eq_zero.1 h).resolve_right hve
    rw [sub_eq_zero, inv_eq_one] at this
    exact this
  · intro h
    rw [h]
    simp

/-- The second solution: the cofactor value vanishes iff `|U e| = 1`. -/
theorem cof_second {U V : Mat3} (hU : IsSPD U) {e : V3} (he : IsTwinAxis U V e)
    {v : V3} (hv : U *ᵥ v = v) (hev : e ⬝ᵥ v ≠ 0) {k : ℝ} (hk0 : k ≠ 0)
    (hk : (U * U - 1).adjugate = k • vecMulVec v v) {x : TwinSol} (hx : twinSol2 id U V e = some x) :
    -cofVal U x.2.1 x.2.2 = 0 ↔ vnorm (U *ᵥ e) = 1 := by
  have hUd := (spd_det_pos hU).ne'
  have hden : (U *ᵥ e) ⬝ᵥ (U *ᵥ e) ≠ 0 := fun h =>
    mulVec_ne hUd (unit_ne he.1) (dotProduct_self_eq_zero.1 h)
  have hve : v ⬝ᵥ e ≠ 0 := by rwa [dotProduct_comm]
  unfold twinSol2 at hx
  simp only at hx
  rw [if_neg hden] at hx
  split_ifs at hx with hr
  cases hx
  have hvn : ∀ x : V3, vnorm x = 1 ↔ x ⬝ᵥ x = 1 := fun x =>
    sq_eq_one_iff' (Finset.sum_nonneg fun i _ => mul_self_nonneg _)
  rw [hvn]
  simp only [id]
  rw [cofVal_kernel hk]
  obtain ⟨n, hn⟩ : ∃ n, n = (2 : ℝ) • (e - ((U *ᵥ e) ⬝ᵥ (U *ᵥ e))⁻¹ • U *ᵥ (U *ᵥ e)) := ⟨_, rfl⟩
  rw [← hn] at hr ⊢
  have e1 : v ⬝ᵥ (fun i => ((vnorm n)⁻¹ • n) i) = (vnorm n)⁻¹ * (2 * ((1 - ((U *ᵥ e) ⬝ᵥ (U *ᵥ e))⁻¹) * (v ⬝ᵥ e))) := by
    change v ⬝ᵥ ((vnorm n)⁻¹ • n) = _
    rw [dotProduct_smul, smul_eq_mul]
    congr 1
    rw [hn, dotProduct_smul, dotProduct_sub, dotProduct_smul,
      move_sym hU.1 hv, move_sym hU.1 hv, smul_eq_mul, smul_eq_mul]
    ring
  have e2 : v ⬝ᵥ U *ᵥ (fun i => (vnorm n • U *ᵥ e) i) = vnorm n * (v ⬝ᵥ e) := by
    change v ⬝ᵥ U *ᵥ (vnorm n • U *ᵥ e) = _
    rw [mulVec_smul, dotProduct_smul, move_sym hU.1 hv, move_sym hU.1 hv, smul_eq_mul]
  rw [e1, e2, neg_eq_zero]
  constructor
  · intro h
    have h' : k * (2 * ((1 - ((U *ᵥ e) ⬝ᵥ (U *ᵥ e))⁻¹) * (v ⬝ᵥ e))) * (v ⬝ᵥ e) = 0 := by
      rw [← h]
      field_simp
    have : 1 - ((U *ᵥ e) ⬝ᵥ (U *ᵥ e))⁻¹ = 0 := by
      rcases mul_eq_zero.1 h' with h | h
      · rcases mul_eq_zero.1 h with h | h
        · exact absurd h hk0
        · rcases mul_eq_zero.1 h with h | h
          · norm_num at h
          · exact (mul_eq_zero.1 h).resolve_right hve
      · exact absurd h hve
    rw [sub_eq_zero, eq_comm, inv_eq_one] at this
    exact this
  · intro h
    rw [h]
    simp

/-! ### C74 -/

/-- **C74**, the values: for every rank-one connected pair of distinct variants under the cubic group whose axis
tests have no near misses, and in exact arithmetic, `direct_cof()` returns for each of the two twins reported
by `twinparam()` minus the value `U a · cof(U² - I) n`; it vanishes, and `U` leaves a direction
unstretched, iff the laminate of the twin fits the undeformed parent at every volume fraction.
Missing: the documented sign (`C74_sign_fails`), near misses of the axis tests, rounding to ten decimals. -/
theorem C74_all_fractions_partial (eig : Mat3 → EigRes)
    (heig : ∀ A, Aᵀ = A → EigOK (eig A).vals (eig A).vecs A) (t : Tol)
    (U V : Mat3) (hU : IsSPD U) (hV : IsSPD V) (hrel : Related U V)
    (hd : ∃ i j, 1 / 10 ^ 12 ≤ |U i j - V i j|) (hc : RankOneConnected U V)
    (vs : List M3) (hvs : Mart.getVariants t ⟨some U, cubicR⟩ = .ok vs) (hmem : V ∈ vs) (skip : Bool) :
    ∃ p, TwinPair.new eig U V skip = .ok p ∧ (Clean p →
      ∃ Q₁ a₁ n₁ Q₂ a₂ n₂ c₁ c₂,
        p.twinParam eig t id false = .ok (some (some (Q₁, a₁, n₁), some (Q₂, a₂, n₂))) ∧
        p.directCof eig t id false = .ok (some c₁, some c₂) ∧
        c₁ = -cofactorValue U a₁ n₁ ∧ c₂ = -cofactorValue U a₂ n₂ ∧
        (c₁ = 0 ∧ HasUnstretched U ↔ ∀ f, LaminateFits U a₁ n₁ f) ∧
        (c₂ = 0 ∧ HasUnstretched U ↔ ∀ f, LaminateFits U a₂ n₂ f)) := by
  obtain ⟨p, hp, h⟩ := C55_exact eig heig t U V hU hV hrel hd hc vs hvs hmem skip
  refine ⟨p, hp, fun hcl => ?_⟩
  obtain ⟨Q₁, a₁, n₁, Q₂, a₂, n₂, h1, h2, h3⟩ := h hcl
  rw [new_ok eig hU hV] at hp
  cases hp
  have key : ∀ {Q a n}, SolvesTwin U V Q a n →
      (-cofVal U a n = 0 ∧ HasUnstretched U ↔ ∀ f, LaminateFits U a n f) := by
    intro Q a n hs
    have hends := interface_ends hU.1 hV.1 hrel hs
    have h0 : interfaceDet U a n 0 = (U * U - 1).det := det_eq_zero_frac U a n
    rw [unstretched_iff hU]
    constructor
    · rintro ⟨k1, k2⟩ f
      rw [fits_iff hU.1, interface_quadratic hU.1, hends, h0, k2, neg_eq_zero.1 k1]
      ring
    · intro hf
      have f0 := (fits_iff hU.1 a n 0).1 (hf 0)
      have f1 := (fits_iff hU.1 a n 1).1 (hf 1)
      have f2 := (fits_iff hU.1 a n (1 / 2)).1 (hf _)
      have := minusAlpha_eq hU.1 a n
      rw [f0, f1, f2] at this
      exact ⟨by linarith, by rw [← h0, f0]⟩
  exact ⟨Q₁, a₁, n₁, Q₂, a₂, n₂, -cofVal U a₁ n₁, -cofVal U a₂ n₂, h1, by simp [TwinPair.directCof, h1],
    by rw [cofVal_eq, cofactorValue], by rw [cofVal_eq, cofactorValue], key h2, key h3⟩

/-- **C74**, the parameters: for such a pair that is not compound and whose stretch leaves a direction unstretched,
the values of `direct_cof()` vanish exactly if `XI()` and `XII()` equal one.
Missing: near misses of the axis tests, rounding to ten decimals. -/
theorem C74_parameters_partial (eig : Mat3 → EigRes)
    (heig : ∀ A, Aᵀ = A → EigOK (eig A).vals (eig A).vecs A) (t : Tol)
    (U V : Mat3) (hU : IsSPD U) (hV : IsSPD V) (hrel : Related U V)
    (hd : ∃ i j, 1 / 10 ^ 12 ≤ |U i j - V i j|) (hc : RankOneConnected U V)
    (vs : List M3) (hvs : Mart.getVariants t ⟨some U, cubicR⟩ = .ok vs) (hmem : V ∈ vs) (skip : Bool)
    (hun : HasUnstretched U) :
    ∃ p, TwinPair.new eig U V skip = .ok p ∧ (Clean p → p.isCompound = .ok false →
      ∃ x₁ x₂ c₁ c₂, p.xI = .ok (some x₁) ∧ p.xII = .ok (some x₂) ∧
        p.directCof eig t id false = .ok (some c₁, some c₂) ∧ (c₁ = 0 ↔ x₁ = 1) ∧ (c₂ = 0 ↔ x₂ = 1)) := by
  obtain ⟨p, l, hp, hl, hne, hall, hax⟩ := C69_axes eig heig U V hU hV hrel hd hc skip
  refine ⟨p, hp, fun hcl hcomp => ?_⟩
  rw [new_ok eig hU hV] at hp
  cases hp
  have hUV : U ≠ V := by
    rintro rfl
    obtain ⟨i, j, h⟩ := hd
    rw [sub_self, abs_zero] at h
    norm_num at h
  have hlen : l.length ≤ 1 := by
    simpa [TwinPair.isCompound, hl] using hcomp
  cases l with
  | nil => exact absurd rfl hne
  | cons x xs =>
    have hxs : xs = [] := by
      cases xs with
      | nil => rfl
      | cons y ys => simp at hlen
    subst hxs
    obtain ⟨e, rfl, he⟩ := hax hcl x (by simp)
    have hone : ∀ e', IsTwinAxis U V e' → e' = e ∨ e' = -e := by
      intro e' he'
      rcases hall e' he' with h | h <;> simp only [List.mem_singleton, Option.some.injEq] at h
      · exact .inl h
      · exact .inr (by rw [← h, neg_neg])
    obtain ⟨w, hw0, hw⟩ := hun
    obtain ⟨v, hv0⟩ : ∃ v, unitVec w = some v := Option.ne_none_iff_exists'.1 fun h => hw0 ((unitVec_none w).1 h)
    obtain ⟨hu, z2, z3⟩ := unitVec_some hv0
    have hv : U *ᵥ v = v := by
      rw [z3, mulVec_smul] at hw
      exact smul_right_injective _ z2.ne' hw
    obtain ⟨hev, k, hk0, hk⟩ := single_axis hU he hone hv hu
    obtain ⟨y₁, hy₁, -⟩ := first_solution hU (spd_det_pos hV).ne' he id
    obtain ⟨y₂, hy₂, -⟩ := second_solution hU hV hUV he id
    obtain ⟨x', y', hs, -, -⟩ := solveTwin_axis eig t id hU hV hUV hvs hmem he
    have hs' : solveTwin eig t id false U V (some (some e)) = .ok (some (some y₁, some y₂)) := by
      have hunit : unitVec e = some e := unitVec_of_isDirection ⟨he.1, 1, one_pos, (one_smul _ _).symm⟩
      rw [hs]
      unfold solveTwin at hs
      simp only [Option.bind_some, hunit, Option.map_some, r180_eq, he.2] at hs
      rw [if_neg (by simp), if_neg (spd_det_pos hU).ne'] at hs
      split at hs
      · simp at hs
      · simp at hs
      · rw [if_neg (spd_det_pos hV).ne', hy₁, hy₂] at hs
        exact hs.symm
    have htw := (setup eig heig hU hV hrel hd hc).twinnable
    refine ⟨vnorm (U⁻¹ *ᵥ e), vnorm (U *ᵥ e), -cofVal U y₁.2.1 y₁.2.2, -cofVal U y₂.2.1 y₂.2.2, ?_, ?_, ?_,
      cof_first hU he hv hev hk0 hk hy₁, cof_second hU he hv hev hk0 hk hy₂⟩
    · simp [TwinPair.xI, hcomp, TwinPair.firstAx, hl]
    · simp [TwinPair.xII, hcomp, TwinPair.firstAx, hl]
    · simp [TwinPair.directCof, TwinPair.twinParam, htw, hl, hs']

/-! ### examples -/

/-- The tests of `ax()` have no near misses and the pair is not compound if the middle eigenvector is not an
eigenvector of `U²`, by some margin. -/
theorem clean_of_margin {U V : Mat3} {e : EigRes} (h : Setup U V e)
    (hD : 1 / 10 ^ 20 ≤ (U *ᵥ (U *ᵥ e.vecs 1)) ⬝ᵥ (U *ᵥ (U *ᵥ e.vecs 1)) -
      ((U *ᵥ e.vecs 1) ⬝ᵥ (U *ᵥ e.vecs 1)) ^ 2) :
    Clean ⟨U, V, e⟩ ∧ (TwinPair.mk U V e).isCompound = .ok false := by
  set X := (U *ᵥ e.vecs 1) ⬝ᵥ (U *ᵥ e.vecs 0) with hX
  set Y := (U *ᵥ e.vecs 1) ⬝ᵥ (U *ᵥ e.vecs 2) with hY
  have hXY : (U *ᵥ (U *ᵥ e.vecs 1)) ⬝ᵥ (U *ᵥ (U *ᵥ e.vecs 1)) =
      X ^ 2 + ((U *ᵥ e.vecs 1) ⬝ᵥ (U *ᵥ e.vecs 1)) ^ 2 + Y ^ 2 := by
    have hq : (U *ᵥ (U *ᵥ e.vecs 1)) ⬝ᵥ (U *ᵥ (U *ᵥ e.vecs 1)) = (U *ᵥ e.vecs 1) ⬝ᵥ (U * U) *ᵥ (U *ᵥ e.vecs 1) := by
      rw [← mulVec_mulVec, dotProduct_mulVec (U *ᵥ e.vecs 1), ← mulVec_transpose, h.spdU.1]
    rw [hq, h.frame.sqU]
    simp only [Fin.sum_univ_three, add_mulVec, vecMulVec_mulVec, dotProduct_add, dotProduct_smul, op_smul_eq_smul,
      smul_eq_mul]
    rw [dotProduct_comm (U *ᵥ e.vecs 0), dotProduct_comm (U *ᵥ e.vecs 2), ← hX, ← hY]
    ring
  have ho : X ^ 2 = e.vals 2 * Y ^ 2 := h.orth
  have hgt := h.frame.gt
  have hbig : 1 / 10 ^ 20 ≤ 2 * X ^ 2 := by nlinarith [sq_nonneg Y]
  have hX1 : 1 / 10 ^ 11 ≤ |X| := by
    by_contra hc
    push Not at hc
    have : X ^ 2 < (1 / 10 ^ 11) ^ 2 := by rw [← sq_abs]; gcongr
    norm_num at this hbig
    linarith
  have hq : Real.sqrt (e.vals 2) * Real.sqrt (e.vals 2) = e.vals 2 := Real.mul_self_sqrt (by linarith)
  have hsum : axTest U e (-1) + axTest U e 1 = 2 * X := by
    unfold axTest
    rw [← hX, ← hY]
    ring
  have hprod := test_exists h
  have hs : small < 1 / 10 ^ 11 := by norm_num [small]
  have key : ∀ a b : ℝ, a + b = 2 * X → a = 0 → ¬ |b| < small := by
    intro a b hab ha hb
    rw [ha, zero_add] at hab
    rw [hab, abs_mul, abs_two] at hb
    linarith
  constructor
  · rintro s hs' ht
    rcases hprod with h0 | h0
    · rcases hs' with rfl | rfl
      · exact h0
      · exact absurd ht (key _ _ hsum h0)
    · rcases hs' with rfl | rfl
      · exact absurd ht (key _ _ (by rw [add_comm]; exact hsum) h0)
      · exact h0
  · obtain ⟨r1, x1, -, -, -, ha1⟩ := axis_eval h (s := -1) (by norm_num)
    obtain ⟨r2, x2, -, -, -, ha2⟩ := axis_eval h (s := 1) (by norm_num)
    unfold TwinPair.isCompound TwinPair.ax
    rw [if_neg (by rw [h.twinnable]; simp), ha1, ha2]
    rcases hprod with h0 | h0
    · rw [if_neg (key _ _ hsum h0)]
      split_ifs <;> simp
    · rw [if_neg (key _ _ (by rw [add_comm]; exact hsum) h0)]
      split_ifs <;> simp

/-- A stretch with principal stretches 1, 2 and 4. -/
def monoZ : Matrix (Fin 3) (Fin 3) ℤ := !![2, 1, 0; 1, 3, 1; 0, 1, 2]
def monoZ2 : Matrix (Fin 3) (Fin 3) ℤ := !![2, -1, 0; -1, 3, 1; 0, 1, 2]
noncomputable def mono : Mat3 := toR monoZ
noncomputable def mono2 : Mat3 := toR monoZ2

theorem mono_lit : mono = !![2, 1, 0; 1, 3, 1; 0, 1, 2] := by
  ext i j; fin_cases i <;> fin_cases j <;> simp [mono, monoZ, toR]

theorem mono2_lit : mono2 = !![2, -1, 0; -1, 3, 1; 0, 1, 2] := by
  ext i j; fin_cases i <;> fin_cases j <;> simp [mono2, monoZ2, toR]

theorem mono_inv : mono⁻¹ = !![5 / 8, -1 / 4, 1 / 8; -1 / 4, 1 / 2, -1 / 4; 1 / 8, -1 / 4, 5 / 8] := by
  apply inv_eq_left_inv
  rw [mono_lit]
  ext i j; fin_cases i <;> fin_cases j <;> simp [Matrix.mul_apply, Fin.sum_univ_three] <;> norm_num

theorem mono_det : mono.det = 8 := by rw [mono_lit, det_fin_three]; simp; norm_num

theorem quad_form_pos (s : ℝ) (hs : s = 1 ∨ s = -1) : IsSPD !![2, s, 0; s, 3, 1; 0, 1, 2] := by
  constructor
  · ext i j; fin_cases i <;> fin_cases j <;> rfl
  · intro x hx
    have e : x ⬝ᵥ !![2, s, 0; s, 3, 1; 0, 1, 2] *ᵥ x =
        (x 0 + s * x 1) ^ 2 + x 0 ^ 2 + (1 - s * s) * x 1 ^ 2 + (x 1 + x 2) ^ 2 + x 1 ^ 2 + x 2 ^ 2 := by
      rw [Lemmas.dot3]
      simp [mulVec, dotProduct, Fin.sum_univ_three]
      ring
    have hss : s * s = 1 := by rcases hs with rfl | rfl <;> norm_num
    rw [e, hss]
    obtain ⟨i, hi⟩ := Function.ne_iff.1 hx
    have hi' : 0 < x i ^ 2 := by
      have : x i ≠ 0 := hi
      positivity
    have h0 := sq_nonneg (x 0); have h1 := sq_nonneg (x 1); have h2 := sq_nonneg (x 2)
    have h3 := sq_nonneg (x 0 + s * x 1); have h4 := sq_nonneg (x 1 + x 2)
    fin_cases i <;> simp at hi' <;> nlinarith

theorem mono_spd : IsSPD mono := by rw [mono_lit]; exact quad_form_pos 1 (.inl rfl)
theorem mono2_spd : IsSPD mono2 := by rw [mono2_lit]; exact quad_form_pos (-1) (.inr rfl)

theorem mono_axis : IsTwinAxis mono mono2 ![1, 0, 0] := by
  refine ⟨by rw [Lemmas.dot3]; simp, ?_⟩
  rw [mono_lit, mono2_lit]
  ext i j
  fin_cases i <;> fin_cases j <;>
    simp [halfTurn, Matrix.mul_apply, Fin.sum_univ_three, Matrix.one_apply] <;> norm_num

theorem mono_related : Related mono mono2 := ⟨_, halfTurn_rotation mono_axis.1, mono_axis.2.symm⟩

theorem mono_connected : RankOneConnected mono mono2 := by
  obtain ⟨Q, hs⟩ := axis_solves mono_spd mono_axis
  exact ⟨Q, _, _, hs.rotation, hs.equation⟩

theorem mono_differ : ∃ i j, 1 / 10 ^ 12 ≤ |mono i j - mono2 i j| := by
  refine ⟨0, 1, ?_⟩
  rw [mono_lit, mono2_lit]
  norm_num [abs_of_pos]

theorem mono_metric : relMetric mono mono2 =
    !![61 / 16, -54 / 16, 17 / 16; -54 / 16, 52 / 16, -14 / 16; 17 / 16, -14 / 16, 21 / 16] := by
  rw [relMetric, mono_inv, mono2_lit]
  ext i j
  fin_cases i <;> fin_cases j <;> simp [Matrix.mul_apply, Fin.sum_univ_three] <;> norm_num

theorem mono_clean (eig : Mat3 → EigRes) (heig : ∀ A, Aᵀ = A → EigOK (eig A).vals (eig A).vecs A) :
    Clean ⟨mono, mono2, sortEig eig (relMetric mono mono2)⟩ ∧
      (TwinPair.mk mono mono2 (sortEig eig (relMetric mono mono2))).isCompound = .ok false := by
  have h := setup eig heig mono_spd mono2_spd mono_related mono_differ mono_connected
  have hs := (sortEig_spec (heig _ (relMetric_symm mono_spd.1 mono2_spd.1))).1
  apply clean_of_margin h
  set e := sortEig eig (relMetric mono mono2)
  have h1 := hs.eigenvector 1
  have hu := hs.unit 1
  rw [h.frame.one, one_smul, mono_metric] at h1
  have r0 := congrFun h1 0
  have r1 := congrFun h1 1
  simp [mulVec, dotProduct, Fin.sum_univ_three] at r0 r1
  have a1 : e.vecs 1 1 = -2 * e.vecs 1 0 := by linarith
  have a2 : e.vecs 1 2 = -9 * e.vecs 1 0 := by linarith
  rw [Lemmas.dot3, a1, a2] at hu
  have hx : e.vecs 1 0 ^ 2 = 1 / 86 := by linarith
  have hv : e.vecs 1 = e.vecs 1 0 • ![1, -2, -9] := by
    ext i; fin_cases i <;> simp [a1, a2, mul_comm]
  rw [hv, mulVec_smul, mulVec_smul, mono_lit]
  simp only [smul_dotProduct, dotProduct_smul, smul_eq_mul, Lemmas.dot3]
  simp [mulVec, dotProduct, Fin.sum_univ_three]
  ring_nf
  rw [show e.vecs 1 0 ^ 4 = (e.vecs 1 0 ^ 2) ^ 2 by ring, hx]
  norm_num

theorem eighth_far {m : ℤ} (hb : -40 ≤ m ∧ m ≤ 40) (hm : ¬ 8 ∣ m) {x : ℝ} (hx : x = m / 8) (z : ℤ) :
    1 / 10 ^ 8 + 1 / 10 ^ 5 * |(z : ℝ)| < |x - z| := by
  have h1 : 8 * (m / 8) + 1 ≤ m := by omega
  have h2 : m ≤ 8 * (m / 8) + 7 := by omega
  have h1' : 8 * ((m / 8 : ℤ) : ℝ) + 1 ≤ m := by exact_mod_cast h1
  have h2' : (m : ℝ) ≤ 8 * ((m / 8 : ℤ) : ℝ) + 7 := by exact_mod_cast h2
  refine far_of_between (m / 8) ?_ (by rw [hx]; linarith) (by rw [hx]; linarith) z
  rw [← Int.cast_abs]
  have : |m / 8| ≤ 5 := by rw [abs_le]; omega
  exact_mod_cast this

/-- Eight times the inverse of `monoZ`. -/
def monoAdj : Matrix (Fin 3) (Fin 3) ℤ := !![5, -2, 1; -2, 4, -2; 1, -2, 5]

theorem mono_conj (R : Matrix (Fin 3) (Fin 3) ℤ) (i j : Fin 3) :
    (mono⁻¹ * (toR R * mono)) i j = ((monoAdj * (R * monoZ)) i j : ℤ) / 8 := by
  have h : mono⁻¹ = (1 / 8 : ℝ) • toR monoAdj := by
    rw [mono_inv]
    ext i j; fin_cases i <;> fin_cases j <;> simp [monoAdj, toR] <;> norm_num
  rw [h, smul_mul_assoc, mono, ← toR_mul, ← toR_mul, Matrix.smul_apply, toR, Matrix.map_apply, smul_eq_mul]
  ring

theorem mono_laue : ∃ lg, Lat.laueGroup .code ⟨3, mono⟩ = .ok lg ∧ lg.length = 2 ∧ ∀ Q ∈ lg, Q ∈ cubicR := by
  have hE : mono.det ≠ 0 := by rw [mono_det]; norm_num
  have hfar : ∀ R ∈ cubicLaue, (∀ i j, -40 ≤ (monoAdj * (R * monoZ)) i j ∧ (monoAdj * (R * monoZ)) i j ≤ 40) := by
    unfold cubicLaue; decide +kernel
  have hp : ∀ R ∈ cubicLaue, passes .code mono (.int R) = decide (∀ i j, (8 : ℤ) ∣ (monoAdj * (R * monoZ)) i j) := by
    intro R hR
    by_cases h : ∀ i j, (8 : ℤ) ∣ (monoAdj * (R * monoZ)) i j
    · rw [decide_eq_true h]
      refine passes_of_sym tolOK_code hE (.int R) ((inPointGroup_iff hE).2 ⟨?_, ?_⟩)
      · change toR R * (toR R)ᵀ = 1
        rw [← toR_transpose, ← toR_mul, cubic_ortho R hR, toR_one]
      · intro i j
        obtain ⟨z, hz⟩ := h i j
        refine ⟨z, ?_⟩
        change (mono⁻¹ * (toR R * mono)) i j = _
        rw [mono_conj, hz]
        push_cast
        ring
    · rw [decide_eq_false h]
      push Not at h
      obtain ⟨i, j, hij⟩ := h
      have : eqTest .code mono (toR R * mono) = false :=
        eqTest_of_far (.inl rfl) (eighth_far (hfar R hR i j) hij (mono_conj R i j))
      simp [passes, this]
  have hl : ((cubicLaue.map NMat.int).filter (passes .code mono)).length = 2 := by
    rw [List.filter_map, List.length_map]
    rw [List.filter_congr (q := fun R => decide (∀ i j, (8 : ℤ) ∣ (monoAdj * (R * monoZ)) i j)) hp]
    unfold cubicLaue
    decide +kernel
  refine ⟨((cubicLaue.map NMat.int).filter (passes .code mono)).map NMat.val, ?_, ?_, ?_⟩
  · rw [laueGroup_three]
    simp only [Lat.select, filter_ok .code hE]
    rw [if_neg (by rw [List.length_map, hl]; norm_num)]
  · rw [List.length_map, hl]
  · intro Q hQ
    obtain ⟨N, hN, rfl⟩ := List.mem_map.1 hQ
    obtain ⟨R, hR, rfl⟩ := List.mem_map.1 (List.mem_filter.1 hN).1
    exact List.mem_map.2 ⟨R, hR, rfl⟩

theorem mono_variants : ∃ vs, Mart.getVariants .code ⟨some mono, cubicR⟩ = .ok vs ∧ mono2 ∈ vs := by
  have hsep : ∀ P ∈ cubicR, ∀ Q ∈ cubicR,
      allclose .code (P * mono * Pᵀ) (Q * mono * Qᵀ) ↔ P * mono * Pᵀ = Q * mono * Qᵀ := by
    intro P hP Q hQ
    obtain ⟨R, hR, rfl⟩ := List.mem_map.1 hP
    obtain ⟨S, hS, rfl⟩ := List.mem_map.1 hQ
    rw [mono, ← toR_transpose, ← toR_transpose, ← toR_mul, ← toR_mul, ← toR_mul, ← toR_mul]
    apply allclose_int
    have : ∀ S ∈ cubicLaue, ∀ i j, |(S * monoZ * Sᵀ) i j| ≤ 1000 := by
      unfold cubicLaue; decide +kernel
    exact this S hS
  have hrev : Mart.isReversible .code ⟨some mono, cubicR⟩ = .ok true := by
    obtain ⟨lg, h1, h2, h3⟩ := mono_laue
    have hl : cubicR.length = 24 := by simp [cubicR, cubicLaue]
    simp only [Mart.isReversible, lat_new_sq false (M := mono) (by rw [mono_det]; norm_num), h1]
    have : hasSubgroup .code cubicR lg = true := by
      rw [C20_hassubgroup _ _ _ (by intro h; rw [h] at hl; simp at hl)]
      refine ⟨by rw [h2, hl]; norm_num, fun A hA => ⟨A, h3 A hA, allclose_self tolOK_code A⟩⟩
    rw [this, hl, h2]
    rfl
  have h := variants_spec (t := .code) cubicR_group cubicR_nodup cubicR_ortho hsep
  refine ⟨_, ?_, (h.orbit mono2).2 ⟨toR !![1, 0, 0; 0, -1, 0; 0, 0, -1], ?_, ?_⟩⟩
  · simp [Mart.getVariants, Mart.calcVariants, hrev]
  · exact List.mem_map_of_mem (by unfold cubicLaue; decide +kernel)
  · rw [mono_lit, mono2_lit]
    ext i j
    fin_cases i <;> fin_cases j <;> simp [toR, Matrix.mul_apply, Fin.sum_univ_three]

-- the pair meets all the hypotheses of `C74_parameters_partial` and is not compound
example (eig : Mat3 → EigRes) (heig : ∀ A, Aᵀ = A → EigOK (eig A).vals (eig A).vecs A) :
    ∃ p x₁ x₂ c₁ c₂, TwinPair.new eig mono mono2 false = .ok p ∧ p.xI = .ok (some x₁) ∧ p.xII = .ok (some x₂) ∧
        p.directCof eig .code id false = .ok (some c₁, some c₂) ∧ (c₁ = 0 ↔ x₁ = 1) ∧ (c₂ = 0 ↔ x₂ = 1) := by
  obtain ⟨vs, h1, h2⟩ := mono_variants
  obtain ⟨p, hp, h⟩ := C74_parameters_partial eig heig .code mono mono2 mono_spd mono2_spd mono_related mono_differ
    mono_connected vs h1 h2 false ⟨![1, -1, 1], fun h => by simpa using congrFun h 0, by
      rw [mono_lit]; ext i; fin_cases i <;> simp [mulVec, dotProduct, Fin.sum_univ_three] <;> norm_num⟩
  have hp' := hp
  rw [new_ok eig mono_spd mono2_spd] at hp'
  cases hp'
  obtain ⟨x₁, x₂, c₁, c₂, h3⟩ := h (mono_clean eig heig).1 (mono_clean eig heig).2
  exact ⟨_, x₁, x₂, c₁, c₂, hp, h3⟩

/-- The documentation of `direct_cof` promises `U a · cof(U² - I) n`; both values returned have the opposite sign. -/
theorem C74_sign_fails (eig : Mat3 → EigRes) (heig : ∀ A, Aᵀ = A → EigOK (eig A).vals (eig A).vecs A) :
    ∃ U V p Q₁ a₁ n₁ Q₂ a₂ n₂ c₁ c₂, TwinPair.new eig U V false = .ok p ∧
      p.twinParam eig .code id false = .ok (some (some (Q₁, a₁, n₁), some (Q₂, a₂, n₂))) ∧
      p.directCof eig .code id false = .ok (some c₁, some c₂) ∧
      c₁ ≠ cofactorValue U a₁ n₁ ∧ c₂ ≠ cofactorValue U a₂ n₂ := by
  obtain ⟨p, Q₁, a₁, n₁, Q₂, a₂, n₂, hp, hUi, h1, h2, h3, -⟩ := quad_pair eig heig (.inl rfl)
  refine ⟨_, _, p, Q₁, a₁, n₁, Q₂, a₂, n₂, _, _, hp, h1, by simp [TwinPair.directCof, h1]; exact ⟨rfl, rfl⟩, ?_, ?_⟩
  all_goals
    simp only [hUi]
    rw [cofactorValue, ← cofVal_eq]
    intro h0
  · have := minusAlpha_eq (quad_spd (s := 3 / 4) (by norm_num)).1 a₁ n₁
    rw [quad_interface (by norm_num) h2, quad_interface (by norm_num) h2, quad_interface (by norm_num) h2] at this
    norm_num at this
    linarith
  · have := minusAlpha_eq (quad_spd (s := 3 / 4) (by norm_num)).1 a₂ n₂
    rw [quad_interface (by norm_num) h3, quad_interface (by norm_num) h3, quad_interface (by norm_num) h3] at this
    norm_num at this
    linarith

end Verif.Props
