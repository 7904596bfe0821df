import Verif.Props.TetraLaminate
import Verif.Spec.Swap

/-!
# C103: all twins of a pair, and the pair in the other order
-/

namespace Verif.Props

open Matrix Verif.Model Verif.Spec Verif.Lemmas

local notation "Mat3" => Matrix (Fin 3) (Fin 3) ℝ

/-! ### The twinning equation has at most two solutions -/

/-- A quadratic form that is a product of two perpendicular linear forms is not a product in another way. -/
theorem dyads_unique {n₁ c₁ n₂ c₂ n₃ c₃ : V3} (h1 : n₁ ⬝ᵥ n₁ = 1) (h2 : n₂ ⬝ᵥ n₂ = 1) (h3 : n₃ ⬝ᵥ n₃ = 1)
    (h12 : n₁ ⬝ᵥ n₂ = 0) (hc : c₁ ≠ 0)
    (e2 : ∀ x, (c₁ ⬝ᵥ x) • n₁ + (n₁ ⬝ᵥ x) • c₁ = (c₂ ⬝ᵥ x) • n₂ + (n₂ ⬝ᵥ x) • c₂)
    (e3 : ∀ x, (c₁ ⬝ᵥ x) • n₁ + (n₁ ⬝ᵥ x) • c₁ = (c₃ ⬝ᵥ x) • n₃ + (n₃ ⬝ᵥ x) • c₃)
    (tr : n₁ ⬝ᵥ c₁ = n₃ ⬝ᵥ c₃) :
    ∃ σ : ℝ, σ * σ = 1 ∧ ((n₃ = σ • n₁ ∧ c₃ = σ • c₁) ∨ (n₃ = σ • n₂ ∧ c₃ = σ • c₂)) := by
  have h21 : n₂ ⬝ᵥ n₁ = 0 := by rw [dotProduct_comm]; exact h12
  have a1 := e2 n₁
  rw [h1, h21, one_smul, zero_smul, add_zero] at a1
  have a11 := congrArg (n₁ ⬝ᵥ ·) a1
  simp only [dotProduct_add, dotProduct_smul, h1, h12, smul_eq_mul, mul_one, mul_zero] at a11
  rw [dotProduct_comm n₁ c₁] at a11
  have c11 : c₁ ⬝ᵥ n₁ = 0 := by linarith
  have c1 : c₁ = (c₂ ⬝ᵥ n₁) • n₂ := by rw [← a1, c11, zero_smul, zero_add]
  have a2 := e2 n₂
  rw [h2, h12, one_smul, zero_smul, add_zero] at a2
  have a22 := congrArg (n₂ ⬝ᵥ ·) a2
  simp only [dotProduct_add, dotProduct_smul, h2, h21, smul_eq_mul, mul_one, mul_zero] at a22
  rw [dotProduct_comm n₂ c₂] at a22
  have c22 : c₂ ⬝ᵥ n₂ = 0 := by linarith
  have c2 : c₂ = (c₁ ⬝ᵥ n₂) • n₁ := by rw [a2, c22, zero_smul, zero_add]
  set k := c₂ ⬝ᵥ n₁ with hk
  have hk' : c₁ ⬝ᵥ n₂ = k := by rw [c1, smul_dotProduct, h2, smul_eq_mul, mul_one]
  rw [hk'] at c2
  have hk0 : k ≠ 0 := by
    intro h
    rw [h, zero_smul] at c1
    exact hc c1
  rw [dotProduct_comm, c11] at tr
  set α := n₁ ⬝ᵥ n₃ with hα
  set β := n₂ ⬝ᵥ n₃ with hβ
  have a3 := e3 n₃
  rw [h3, one_smul, dotProduct_comm c₃, ← tr, zero_smul, zero_add, ← hα, c1, smul_dotProduct, smul_eq_mul, ← hβ] at a3
  have a33 := congrArg (n₃ ⬝ᵥ ·) a3
  simp only [dotProduct_add, dotProduct_smul, smul_eq_mul] at a33
  rw [dotProduct_comm n₃ n₁, dotProduct_comm n₃ n₂, ← hα, ← hβ, ← tr] at a33
  have hαβ : k * (α * β) = 0 := by linarith
  have close : ∀ n : V3, n ⬝ᵥ n = 1 → (n ⬝ᵥ n₃) * (n ⬝ᵥ n₃) = 1 → n₃ = (n ⬝ᵥ n₃) • n := by
    intro n hn hs
    rw [← sub_eq_zero, ← dotProduct_self_eq_zero]
    simp only [sub_dotProduct, dotProduct_sub, smul_dotProduct, dotProduct_smul, smul_eq_mul, h3, hn]
    rw [dotProduct_comm n₃ n]
    linarith
  rcases mul_eq_zero.1 ((mul_eq_zero.1 hαβ).resolve_left hk0) with h0 | h0
  · rw [h0, zero_smul, add_zero] at a3
    have b := congrArg (n₁ ⬝ᵥ ·) (e3 n₂)
    simp only [dotProduct_add, dotProduct_smul, smul_eq_mul, h1, h12, hk', zero_mul, ← hα, h0] at b
    rw [← a3, smul_dotProduct, dotProduct_smul, h1, dotProduct_comm n₃, ← hβ, smul_eq_mul, smul_eq_mul] at b
    have hb : β * β = 1 := by
      have : k * (β * β) = k * 1 := by linarith
      exact mul_left_cancel₀ hk0 this
    refine ⟨β, hb, Or.inr ⟨close n₂ h2 hb, ?_⟩⟩
    rw [← a3, c2, smul_smul, mul_comm]
  · rw [h0, mul_zero, zero_smul, zero_add] at a3
    have b := congrArg (n₂ ⬝ᵥ ·) (e3 n₁)
    simp only [dotProduct_add, dotProduct_smul, smul_eq_mul, h1, h21, c11, ← hβ, h0] at b
    rw [← a3, c1] at b
    simp only [smul_dotProduct, dotProduct_smul, smul_eq_mul, h2, h21] at b
    rw [dotProduct_comm n₃, ← hα] at b
    have hb : α * α = 1 := by
      have : k * (α * α) = k * 1 := by linarith
      exact mul_left_cancel₀ hk0 this
    refine ⟨α, hb, Or.inl ⟨close n₁ h1 hb, ?_⟩⟩
    rw [← a3, c1]

/-- `V² - U²` as a symmetric product of the normal and one other vector. -/
noncomputable def otherNormal (U : Mat3) (a n : V3) : V3 := U *ᵥ a + (a ⬝ᵥ a / 2) • n

theorem otherNormal_apply {U V Q : Mat3} {a n : V3} (hU : Uᵀ = U) (hV : Vᵀ = V) (h : SolvesTwin U V Q a n) (x : V3) :
    (otherNormal U a n ⬝ᵥ x) • n + (n ⬝ᵥ x) • otherNormal U a n = (V * V - U * U) *ᵥ x := by
  have e : V * V - U * U = vecMulVec n (U *ᵥ a) + vecMulVec (U *ᵥ a) n + (a ⬝ᵥ a) • vecMulVec n n := by
    rw [solvesTwin_sq hU hV h]; abel
  rw [e, add_mulVec, add_mulVec, smul_mulVec, vecMulVec_mulVec, vecMulVec_mulVec, vecMulVec_mulVec, otherNormal,
    add_dotProduct, smul_dotProduct]
  ext i
  simp
  ring

theorem otherNormal_trace {U V Q : Mat3} {a n : V3} (hU : Uᵀ = U) (hV : Vᵀ = V) (h : SolvesTwin U V Q a n) :
    2 * (n ⬝ᵥ otherNormal U a n) = (V * V - U * U).trace := by
  have e : V * V - U * U = vecMulVec n (U *ᵥ a) + vecMulVec (U *ᵥ a) n + (a ⬝ᵥ a) • vecMulVec n n := by
    rw [solvesTwin_sq hU hV h]; abel
  rw [e, trace_add, trace_add, trace_smul, trace_vecMulVec, trace_vecMulVec, trace_vecMulVec, otherNormal,
    dotProduct_add, dotProduct_smul, h.unit, dotProduct_comm (U *ᵥ a) n, smul_eq_mul, smul_eq_mul]
  ring

/-- The normal and the other vector determine the shear. -/
theorem shear_of_normal {U V Q Q' : Mat3} {a n a' n' : V3} (hU : IsSPD U) (hrel : Related U V)
    (h : SolvesTwin U V Q a n) (h' : SolvesTwin U V Q' a' n') {σ : ℝ} (hσ : σ * σ = 1) (hn : n' = σ • n)
    (hc : otherNormal U a' n' = σ • otherNormal U a n) : a' = σ • a := by
  have hUd := (spd_det_pos hU).ne'
  have hu := isUnit_iff_ne_zero.2 hUd
  have o := twin_orth hU hrel h
  have o' := twin_orth hU hrel h'
  have hσ0 : σ ≠ 0 := by rintro rfl; norm_num at hσ
  rw [hn, smul_dotProduct, smul_eq_mul] at o'
  replace o' := (mul_eq_zero.1 o').resolve_left hσ0
  rw [otherNormal, otherNormal, hn] at hc
  have e : U *ᵥ (a' - σ • a) = (σ * ((a ⬝ᵥ a) - (a' ⬝ᵥ a')) / 2) • n := by
    rw [mulVec_sub, mulVec_smul]
    ext i
    have := congrFun hc i
    simp at this ⊢
    linear_combination this
  have e2 : U⁻¹ *ᵥ (a' - σ • a) = (σ * ((a ⬝ᵥ a) - (a' ⬝ᵥ a')) / 2) • U⁻¹ *ᵥ (U⁻¹ *ᵥ n) := by
    rw [← mulVec_smul, ← mulVec_smul, ← e, mulVec_mulVec, mulVec_mulVec, Matrix.mul_assoc,
      nonsing_inv_mul _ hu, Matrix.mul_one]
  have e3 := congrArg (n ⬝ᵥ ·) e2
  simp only [dotProduct_smul, mulVec_sub, dotProduct_sub, mulVec_smul, o, o', smul_eq_mul, mul_zero, sub_zero] at e3
  have hsi : (U⁻¹)ᵀ = U⁻¹ := by rw [transpose_nonsing_inv, hU.1]
  rw [sym_dot hsi] at e3
  have hpos : (U⁻¹ *ᵥ n) ⬝ᵥ (U⁻¹ *ᵥ n) ≠ 0 := fun h0 =>
    mulVec_ne (inv_det_ne hUd) (unit_ne h.unit) (dotProduct_self_eq_zero.1 h0)
  have hz := (mul_eq_zero.1 e3.symm).resolve_right hpos
  rw [hz, zero_smul] at e
  have : a' - σ • a = 0 := by
    calc a' - σ • a = U⁻¹ *ᵥ (U *ᵥ (a' - σ • a)) := by rw [mulVec_mulVec, nonsing_inv_mul _ hu, one_mulVec]
      _ = 0 := by rw [e, mulVec_zero]
  exact sub_eq_zero.1 this

theorem pm_one {σ : ℝ} (h : σ * σ = 1) : σ = 1 ∨ σ = -1 := mul_self_eq_one_iff.1 h

theorem same_of_smul {a n a' n' : V3} {σ : ℝ} (hσ : σ * σ = 1) (ha : a' = σ • a) (hn : n' = σ • n) :
    SameUpToSign a n a' n' := by
  rcases pm_one hσ with rfl | rfl
  · rw [one_smul] at ha hn
    exact Or.inl ⟨ha, hn⟩
  · rw [neg_smul, one_smul] at ha hn
    exact Or.inr ⟨ha, hn⟩

theorem sameSign_dyad {a n a' n' : V3} (h : SameUpToSign a n a' n') : vecMulVec a' n' = vecMulVec a n := by
  rcases h with ⟨rfl, rfl⟩ | ⟨rfl, rfl⟩
  · rfl
  · rw [neg_vecMulVec, vecMulVec_neg, neg_neg]

theorem same_rotation {U V Q Q' : Mat3} {a n a' n' : V3} (hV : IsSPD V) (h : SolvesTwin U V Q a n)
    (h' : SolvesTwin U V Q' a' n') (hs : SameUpToSign a n a' n') : Q' = Q := by
  rw [solves_rotation hV h, solves_rotation hV h', outer_eq, outer_eq, sameSign_dyad hs]

/-- With two solutions whose planes are perpendicular, there is no third. -/
theorem twins_all {U V Q₁ Q₂ Q : Mat3} {a₁ n₁ a₂ n₂ a n : V3} (hU : IsSPD U) (hV : IsSPD V) (hne : U ≠ V)
    (hrel : Related U V) (h₁ : SolvesTwin U V Q₁ a₁ n₁) (h₂ : SolvesTwin U V Q₂ a₂ n₂) (h12 : n₁ ⬝ᵥ n₂ = 0)
    (h : SolvesTwin U V Q a n) :
    (Q = Q₁ ∧ SameUpToSign a₁ n₁ a n) ∨ (Q = Q₂ ∧ SameUpToSign a₂ n₂ a n) := by
  have hc : otherNormal U a₁ n₁ ≠ 0 := by
    intro h0
    apply hne
    refine spd_sq_inj hU hV (ext_of_mulVec_single fun i => ?_)
    have := otherNormal_apply hU.1 hV.1 h₁ (Pi.single i 1)
    rw [h0, zero_dotProduct, zero_smul, smul_zero, add_zero, sub_mulVec] at this
    exact (sub_eq_zero.1 this.symm).symm
  have tr : n₁ ⬝ᵥ otherNormal U a₁ n₁ = n ⬝ᵥ otherNormal U a n := by
    have e1 := otherNormal_trace hU.1 hV.1 h₁
    have e2 := otherNormal_trace hU.1 hV.1 h
    linarith
  obtain ⟨σ, hσ, ⟨hn, hc'⟩ | ⟨hn, hc'⟩⟩ := dyads_unique h₁.unit h₂.unit h.unit h12 hc
    (fun x => (otherNormal_apply hU.1 hV.1 h₁ x).trans (otherNormal_apply hU.1 hV.1 h₂ x).symm)
    (fun x => (otherNormal_apply hU.1 hV.1 h₁ x).trans (otherNormal_apply hU.1 hV.1 h x).symm) tr
  · have hs := same_of_smul hσ (shear_of_normal hU hrel h₁ h hσ hn hc') hn
    exact Or.inl ⟨same_rotation hV h₁ h hs, hs⟩
  · have hs := same_of_smul hσ (shear_of_normal hU hrel h₂ h hσ hn hc') hn
    exact Or.inr ⟨same_rotation hV h₂ h hs, hs⟩

/-! ### `twinparam` returns two solutions with perpendicular planes -/

theorem differ_ne {U V : Mat3} (hd : ∃ i j, 1 / 10 ^ 12 ≤ |U i j - V i j|) : U ≠ V := by
  rintro rfl
  obtain ⟨i, j, h⟩ := hd
  rw [sub_self, abs_zero] at h
  norm_num at h

theorem twinParam_axis (eig : Mat3 → EigRes) (heig : ∀ A, Aᵀ = A → EigOK (eig A).vals (eig A).vecs A) (t : Tol)
    (rnd : ℝ → ℝ) {U V : Mat3} (hU : IsSPD U) (hV : IsSPD V) (hrel : Related U V)
    (hd : ∃ i j, 1 / 10 ^ 12 ≤ |U i j - V i j|) (hc : RankOneConnected U V)
    {vs : List M3} (hvs : Mart.getVariants t ⟨some U, cubicR⟩ = .ok vs) (hmem : V ∈ vs) {skip : Bool} {p : TwinPair}
    (hp : TwinPair.new eig U V skip = .ok p) (hcl : Clean p) :
    ∃ Q₁ a₁ n₁ Q₂ a₂ n₂, p.twinParam eig t rnd false = .ok (some
        (some ((U + outer (fun l => rnd (a₁ l)) fun l => rnd (n₁ l)) * V⁻¹, (fun l => rnd (a₁ l)), fun l => rnd (n₁ l)),
         some ((U + outer (fun l => rnd (a₂ l)) fun l => rnd (n₂ l)) * V⁻¹, (fun l => rnd (a₂ l)), fun l => rnd (n₂ l)))) ∧
      SolvesTwin U V Q₁ a₁ n₁ ∧ SolvesTwin U V Q₂ a₂ n₂ ∧ n₁ ⬝ᵥ n₂ = 0 := by
  obtain ⟨p', l, hp', hl, hne, -, hax⟩ := C69_axes eig heig U V hU hV hrel hd hc skip
  cases hp.symm.trans hp'
  have hUV := differ_ne hd
  cases l with
  | nil => exact absurd rfl hne
  | cons x xs =>
    obtain ⟨e, rfl, he⟩ := hax hcl x (by simp)
    obtain ⟨⟨Q₁, a₁, n₁⟩, hx, hx'⟩ := first_solution hU (spd_det_pos hV).ne' he id
    obtain ⟨⟨Q₂, a₂, n₂⟩, hy, hy'⟩ := second_solution hU hV hUV he id
    obtain ⟨x, y, h1, -, -⟩ := solveTwin_axis eig t rnd hU hV hUV hvs hmem he
    have hpar : p.twinParam eig t rnd false = .ok (some (some x, some y)) := by
      rw [new_ok eig hU hV] at hp
      cases hp
      unfold TwinPair.twinParam
      rw [if_neg (by rw [(setup eig heig hU hV hrel hd hc).twinnable]; simp), hl]
      simpa using h1
    have hunit : unitVec e = some e := unitVec_of_isDirection ⟨he.1, 1, one_pos, (one_smul _ _).symm⟩
    refine ⟨Q₁, a₁, n₁, Q₂, a₂, n₂, ?_, roundedTwin_id hV hx', roundedTwin_id hV hy', sols_orth hU he.1 hx hy⟩
    rw [hpar]
    unfold solveTwin at h1
    simp only [Option.bind_some, hunit, Option.map_some, r180_eq, he.2] at h1
    rw [if_neg (by simp), if_neg (spd_det_pos hU).ne', if_neg (spd_det_pos hV).ne', twinSol1_rnd, twinSol2_rnd, hx,
      hy] at h1
    revert h1
    cases isVariant t U (some V) with
    | error _ => simp
    | ok b =>
      cases b
      · simp
      · intro h
        exact h.symm

theorem twinParam_two (eig : Mat3 → EigRes) (heig : ∀ A, Aᵀ = A → EigOK (eig A).vals (eig A).vecs A) (t : Tol)
    {U V : Mat3} (hU : IsSPD U) (hV : IsSPD V) (hrel : Related U V)
    (hd : ∃ i j, 1 / 10 ^ 12 ≤ |U i j - V i j|) (hc : RankOneConnected U V)
    {vs : List M3} (hvs : Mart.getVariants t ⟨some U, cubicR⟩ = .ok vs) (hmem : V ∈ vs) {skip : Bool} {p : TwinPair}
    (hp : TwinPair.new eig U V skip = .ok p) (hcl : Clean p) :
    ∃ Q₁ a₁ n₁ Q₂ a₂ n₂, p.twinParam eig t id false = .ok (some (some (Q₁, a₁, n₁), some (Q₂, a₂, n₂))) ∧
      SolvesTwin U V Q₁ a₁ n₁ ∧ SolvesTwin U V Q₂ a₂ n₂ ∧ n₁ ⬝ᵥ n₂ = 0 := by
  obtain ⟨Q₁, a₁, n₁, Q₂, a₂, n₂, h, h₁, h₂, ho⟩ := twinParam_axis eig heig t id hU hV hrel hd hc hvs hmem hp hcl
  refine ⟨Q₁, a₁, n₁, Q₂, a₂, n₂, ?_, h₁, h₂, ho⟩
  rw [h, solves_rotation hV h₁, solves_rotation hV h₂]
  rfl

/-! ### The pair in the other order -/

theorem swap_solves {U V Q : Mat3} {a n : V3} (h : SolvesTwin U V Q a n) : SolvesTwin V U Qᵀ (-(Qᵀ *ᵥ a)) n := by
  have hQ : Qᵀ * Q = 1 := mul_eq_one_comm.1 h.rotation.1
  refine ⟨⟨by rw [transpose_transpose]; exact hQ, by rw [det_transpose]; exact h.rotation.2⟩, h.unit, ?_⟩
  rw [neg_vecMulVec, ← mul_vecMulVec, ← h.equation, mul_sub, ← Matrix.mul_assoc, hQ, Matrix.one_mul]
  abel

theorem swap_related {U V : Mat3} (h : Related U V) : Related V U := by
  obtain ⟨G, hG, rfl⟩ := h
  have hG' : Gᵀ * G = 1 := mul_eq_one_comm.1 hG.1
  refine ⟨Gᵀ, ⟨by rw [transpose_transpose]; exact hG', by rw [det_transpose]; exact hG.2⟩, ?_⟩
  calc U = (Gᵀ * G) * U * (Gᵀ * G) := by rw [hG', Matrix.one_mul, Matrix.mul_one]
    _ = _ := by rw [transpose_transpose]; simp only [Matrix.mul_assoc]

/-- The laminate of the pair in the other order with fraction `f` has the metric of the laminate with fraction
`1 - f`. -/
theorem swap_metric {U V Q : Mat3} {a n a' n' : V3} (h : SolvesTwin U V Q a n)
    (hs : SameUpToSign (-(Qᵀ *ᵥ a)) n a' n') (f : ℝ) : mixMetric V a' n' f = mixMetric U a n (1 - f) := by
  have hQ : Qᵀ * Q = 1 := mul_eq_one_comm.1 h.rotation.1
  have hV : V = Qᵀ * (U + vecMulVec a n) := by
    rw [← h.equation, add_sub_cancel, ← Matrix.mul_assoc, hQ, Matrix.one_mul]
  have e : V + f • outer a' n' = Qᵀ * (U + (1 - f) • outer a n) := by
    rw [outer_eq, outer_eq, sameSign_dyad hs, neg_vecMulVec, ← mul_vecMulVec]
    conv_lhs => rw [hV]
    rw [smul_neg, ← mul_smul_comm, ← sub_eq_add_neg, ← mul_sub, sub_smul, one_smul]
    congr 1
    abel
  rw [mixMetric, mixMetric, e, transpose_mul, transpose_transpose, Matrix.mul_assoc, ← Matrix.mul_assoc Q,
    h.rotation.1, Matrix.one_mul]

theorem interface_mix {U : Mat3} (hU : Uᵀ = U) (a n : V3) (f : ℝ) :
    interfaceDet U a n f = (mixMetric U a n f - 1).det := by
  rw [interfaceDet, mixMetric, outer_eq, laminate_metric hU]

theorem swap_solveF {U V Q : Mat3} {a n a' n' : V3} (hU : IsSPD U) (hV : IsSPD V) (hrel : Related U V)
    (h : SolvesTwin U V Q a n) (hs : SameUpToSign (-(Qᵀ *ᵥ a)) n a' n') : solveF V a' n' = solveF U a n := by
  have hi : ∀ f, interfaceDet V a' n' f = interfaceDet U a n (1 - f) := fun f => by
    rw [interface_mix hU.1, interface_mix hV.1, swap_metric h hs]
  have he := interface_ends hU.1 hV.1 hrel h
  have hm : cofVal V a' n' = cofVal U a n := by
    have e1 := minusAlpha_eq hV.1 a' n'
    have e2 := minusAlpha_eq hU.1 a n
    rw [hi, hi, hi, show (1 : ℝ) - 1 / 2 = 1 / 2 by norm_num, sub_zero, sub_self, he] at e1
    rw [he] at e2
    linarith
  have hd : (V * V - 1).det = (U * U - 1).det := by
    rw [← det_eq_zero_frac V a' n', hi, sub_zero, he, det_eq_zero_frac]
  unfold solveF
  rw [hm, hd]

theorem swap_habitStep (eig : Mat3 → EigRes) {U V Q : Mat3} {a n a' n' : V3} (h : SolvesTwin U V Q a n)
    (hs : SameUpToSign (-(Qᵀ *ᵥ a)) n a' n') (Q' : Mat3) (f : Option ℝ) {l : List (Option (M3 × V3 × V3))}
    (hl : habitStep eig U (some (Q, a, n)) f = .ok l) :
    ∃ l', habitStep eig V (some (Q', a', n')) f = .ok l' ∧ l'.Perm l := by
  cases f with
  | none => cases hl
  | some f =>
    simp only [habitStep] at hl ⊢
    rw [swap_metric h hs, swap_metric h hs, sub_sub_cancel]
    cases h1 : extendAm eig (mixMetric U a n f) with
    | error e => rw [h1] at hl; cases hl
    | ok l1 =>
      rw [h1] at hl
      simp only at hl
      cases h2 : extendAm eig (mixMetric U a n (1 - f)) with
      | error e => rw [h2] at hl; cases hl
      | ok l2 =>
        rw [h2] at hl
        cases hl
        exact ⟨_, rfl, List.perm_append_comm⟩

theorem swap_same {Q Q' : Mat3} {a n a' n' : V3} (hQ : IsRotation Q') (h : Q'ᵀ = Q)
    (hs : SameUpToSign a n (-(Q'ᵀ *ᵥ a')) n') : SeenFromOtherSide Q a n Q' a' n' := by
  subst h
  have hQ' : Q' * Q'ᵀ = 1 := hQ.1
  refine ⟨(transpose_transpose _).symm, ?_⟩
  rw [transpose_transpose]
  rcases hs with ⟨h1, h2⟩ | ⟨h1, h2⟩
  · refine Or.inl ⟨?_, h2⟩
    rw [← h1, mulVec_neg, mulVec_mulVec, hQ', one_mulVec, neg_neg]
  · refine Or.inr ⟨?_, h2⟩
    rw [neg_neg, ← neg_eq_iff_eq_neg.2 h1, neg_neg, mulVec_mulVec, hQ', one_mulVec]

/-- **C103**, all twins: the two solutions that `twinparam()` returns are, up to rounding, two exact solutions with
perpendicular planes, and every solution of the twinning equation is one of these, up to the sign of shear and normal.
`rnd` is the rounding to ten decimals. -/
theorem C103_all_twins (eig : Mat3 → EigRes)
    (heig : ∀ A, Aᵀ = A → EigOK (eig A).vals (eig A).vecs A) (t : Tol) (rnd : ℝ → ℝ)
    (U V : Mat3) (hU : IsSPD U) (hV : IsSPD V) (hrel : Related U V)
    (hd : ∃ i j, 1 / 10 ^ 12 ≤ |U i j - V i j|) (hc : RankOneConnected U V)
    (vs : List M3) (hvs : Mart.getVariants t ⟨some U, cubicR⟩ = .ok vs) (hmem : V ∈ vs) (skip : Bool) :
    ∃ p, TwinPair.new eig U V skip = .ok p ∧ (Clean p →
      ∃ Q₁ a₁ n₁ Q₂ a₂ n₂ R₁ R₂, p.twinParam eig t rnd false = .ok (some
          (some (R₁, (fun l => rnd (a₁ l)), fun l => rnd (n₁ l)),
           some (R₂, (fun l => rnd (a₂ l)), fun l => rnd (n₂ l)))) ∧
        R₁ * V - U = vecMulVec (fun l => rnd (a₁ l)) (fun l => rnd (n₁ l)) ∧
        R₂ * V - U = vecMulVec (fun l => rnd (a₂ l)) (fun l => rnd (n₂ l)) ∧
        SolvesTwin U V Q₁ a₁ n₁ ∧ SolvesTwin U V Q₂ a₂ n₂ ∧ n₁ ⬝ᵥ n₂ = 0 ∧
        ∀ Q a n, SolvesTwin U V Q a n →
          (Q = Q₁ ∧ SameUpToSign a₁ n₁ a n) ∨ (Q = Q₂ ∧ SameUpToSign a₂ n₂ a n)) := by
  refine ⟨_, new_ok eig hU hV skip, fun hcl => ?_⟩
  obtain ⟨Q₁, a₁, n₁, Q₂, a₂, n₂, h, h₁, h₂, ho⟩ :=
    twinParam_axis eig heig t rnd hU hV hrel hd hc hvs hmem (new_ok eig hU hV skip) hcl
  have hu := isUnit_iff_ne_zero.2 (spd_det_pos hV).ne'
  have hR : ∀ a n : V3, (U + outer a n) * V⁻¹ * V - U = vecMulVec a n := fun a n => by
    rw [Matrix.mul_assoc, nonsing_inv_mul _ hu, Matrix.mul_one, outer_eq, add_sub_cancel_left]
  exact ⟨Q₁, a₁, n₁, Q₂, a₂, n₂, _, _, h, hR _ _, hR _ _, h₁, h₂, ho,
    fun Q a n hs => twins_all hU hV (differ_ne hd) hrel h₁ h₂ ho hs⟩

theorem same_normal_pm {a n a' n' : V3} (h : SameUpToSign a n a' n') : n' = n ∨ n' = -n := by
  rcases h with ⟨-, h⟩ | ⟨-, h⟩
  · exact Or.inl h
  · exact Or.inr h

theorem habitPlanes_eq {eig : Mat3 → EigRes} {t : Tol} {p : TwinPair} {x y : TwinSol}
    (h : p.twinParam eig t id false = .ok (some (some x, some y))) (ty : TwinType) :
    p.habitPlanes eig t id false ty =
      match ty with
      | .other => .error .valueError
      | _ =>
        if (solveF p.Ui x.2.1 x.2.2).isSome || (solveF p.Ui y.2.1 y.2.2).isSome then
          match habitStep eig p.Ui (some x) (solveF p.Ui x.2.1 x.2.2) with
          | .error e => .error e
          | .ok l =>
            match habitStep eig p.Ui (some y) (solveF p.Ui y.2.1 y.2.2) with
            | .error e => .error e
            | .ok l' => .ok (l ++ l')
        else .error .attributeError := by
  have hv : p.volumeFrac eig t id false = .ok (solveF p.Ui x.2.1 x.2.2, solveF p.Ui y.2.1 y.2.2) := by
    simp only [TwinPair.volumeFrac, h, fracOf]
  have hc : p.isCompat eig t id false .C =
      .ok ((solveF p.Ui x.2.1 x.2.2).isSome || (solveF p.Ui y.2.1 y.2.2).isSome) := by
    simp only [TwinPair.isCompat, hv]
  unfold TwinPair.habitPlanes
  cases ty <;> simp only [hc, h, hv] <;>
    cases (solveF p.Ui x.2.1 x.2.2).isSome || (solveF p.Ui y.2.1 y.2.2).isSome <;> rfl

/-- **C103**, the other order: exchanging the two variants of a pair gives the same twins seen from the other side, in
one order or the other, with the same volume fractions, and the same habit planes in some order.  `iscompound()` is
the same.  Proved for exact numbers; what is missing for `_partial`: `twinparam()` rounds to ten decimals. -/
theorem C103_other_order_partial (eig : Mat3 → EigRes)
    (heig : ∀ A, Aᵀ = A → EigOK (eig A).vals (eig A).vecs A) (t : Tol)
    (U V : Mat3) (hU : IsSPD U) (hV : IsSPD V) (hrel : Related U V)
    (hd : ∃ i j, 1 / 10 ^ 12 ≤ |U i j - V i j|) (hc : RankOneConnected U V)
    (vs vs' : List M3) (hvs : Mart.getVariants t ⟨some U, cubicR⟩ = .ok vs) (hmem : V ∈ vs)
    (hvs' : Mart.getVariants t ⟨some V, cubicR⟩ = .ok vs') (hmem' : U ∈ vs') (skip : Bool) :
    ∃ p p', TwinPair.new eig U V skip = .ok p ∧ TwinPair.new eig V U skip = .ok p' ∧
      p.isTwinnable = true ∧ p'.isTwinnable = true ∧ (Clean p → Clean p' →
      (∃ b, p.isCompound = .ok b ∧ p'.isCompound = .ok b) ∧
      ∃ Q₁ a₁ n₁ Q₂ a₂ n₂ Q₁' a₁' n₁' Q₂' a₂' n₂' f₁ f₂ f₁' f₂',
        p.twinParam eig t id false = .ok (some (some (Q₁, a₁, n₁), some (Q₂, a₂, n₂))) ∧
        p'.twinParam eig t id false = .ok (some (some (Q₁', a₁', n₁'), some (Q₂', a₂', n₂'))) ∧
        p.volumeFrac eig t id false = .ok (f₁, f₂) ∧ p'.volumeFrac eig t id false = .ok (f₁', f₂') ∧
        (SeenFromOtherSide Q₁ a₁ n₁ Q₁' a₁' n₁' ∧ SeenFromOtherSide Q₂ a₂ n₂ Q₂' a₂' n₂' ∧ f₁' = f₁ ∧ f₂' = f₂ ∨
         SeenFromOtherSide Q₂ a₂ n₂ Q₁' a₁' n₁' ∧ SeenFromOtherSide Q₁ a₁ n₁ Q₂' a₂' n₂' ∧ f₁' = f₂ ∧ f₂' = f₁) ∧
        ∀ ty l, p.habitPlanes eig t id false ty = .ok l →
          ∃ l', p'.habitPlanes eig t id false ty = .ok l' ∧ l'.Perm l) := by
  have hrel' := swap_related hrel
  have hd' : ∃ i j, 1 / 10 ^ 12 ≤ |V i j - U i j| := by
    obtain ⟨i, j, h⟩ := hd
    exact ⟨i, j, by rw [abs_sub_comm]; exact h⟩
  have hc' : RankOneConnected V U := (C54_symmetric U V).1 hc
  have hS := setup eig heig hU hV hrel hd hc
  have hS' := setup eig heig hV hU hrel' hd' hc'
  refine ⟨_, _, new_ok eig hU hV skip, new_ok eig hV hU skip, hS.twinnable, hS'.twinnable, fun hcl hcl' => ⟨?_, ?_⟩⟩
  · obtain ⟨q, hq, h⟩ := C69_compound eig heig U V hU hV hrel hd hc skip
    obtain ⟨q', hq', h'⟩ := C69_compound eig heig V U hV hU hrel' hd' hc' skip
    rw [new_ok eig hU hV] at hq
    rw [new_ok eig hV hU] at hq'
    cases hq
    cases hq'
    obtain ⟨b, hb, -, hbi⟩ := h hcl
    obtain ⟨b', hb', -, hbi'⟩ := h' hcl'
    have hax : ∀ {A B : Mat3} {e : V3}, IsTwinAxis A B e → IsTwinAxis B A e := by
      rintro A B e ⟨h1, h2⟩
      refine ⟨h1, ?_⟩
      have hh := halfTurn_sq h1
      have hs := halfTurn_symm e
      rw [← h2, hs]
      calc halfTurn e * (halfTurn e * A * halfTurn e) * halfTurn e
          = (halfTurn e * halfTurn e) * A * (halfTurn e * halfTurn e) := by simp only [Matrix.mul_assoc]
        _ = A := by rw [hh, Matrix.one_mul, Matrix.mul_one]
    refine ⟨b, hb, ?_⟩
    rw [hb']
    congr 1
    rw [Bool.eq_iff_iff, hbi, hbi']
    constructor <;> rintro ⟨e, e', h1, h2, h3⟩ <;> exact ⟨e, e', hax h1, hax h2, h3⟩
  · obtain ⟨Q₁, a₁, n₁, Q₂, a₂, n₂, hp, h₁, h₂, ho⟩ :=
      twinParam_two eig heig t hU hV hrel hd hc hvs hmem (new_ok eig hU hV skip) hcl
    obtain ⟨Q₁', a₁', n₁', Q₂', a₂', n₂', hp', h₁', h₂', ho'⟩ :=
      twinParam_two eig heig t hV hU hrel' hd' hc' hvs' hmem' (new_ok eig hV hU skip) hcl'
    set p : TwinPair := ⟨U, V, sortEig eig (relMetric U V)⟩ with hpd
    set p' : TwinPair := ⟨V, U, sortEig eig (relMetric V U)⟩ with hpd'
    have hv : p.volumeFrac eig t id false = .ok (solveF U a₁ n₁, solveF U a₂ n₂) := by
      simp only [TwinPair.volumeFrac, hp, fracOf]
      rfl
    have hv' : p'.volumeFrac eig t id false = .ok (solveF V a₁' n₁', solveF V a₂' n₂') := by
      simp only [TwinPair.volumeFrac, hp', fracOf]
      rfl
    refine ⟨_, _, _, _, _, _, _, _, _, _, _, _, _, _, _, _, hp, hp', hv, hv', ?_⟩
    have key : (SeenFromOtherSide Q₁ a₁ n₁ Q₁' a₁' n₁' ∧ SeenFromOtherSide Q₂ a₂ n₂ Q₂' a₂' n₂') ∨
        (SeenFromOtherSide Q₂ a₂ n₂ Q₁' a₁' n₁' ∧ SeenFromOtherSide Q₁ a₁ n₁ Q₂' a₂' n₂') := by
      rcases twins_all hU hV (differ_ne hd) hrel h₁ h₂ ho (swap_solves h₁') with ⟨q1, s1⟩ | ⟨q1, s1⟩ <;>
        rcases twins_all hU hV (differ_ne hd) hrel h₁ h₂ ho (swap_solves h₂') with ⟨q2, s2⟩ | ⟨q2, s2⟩
      · exfalso
        rcases same_normal_pm s1 with e1 | e1 <;> rcases same_normal_pm s2 with e2 | e2 <;>
          rw [e1, e2] at ho' <;> simp [h₁.unit] at ho'
      · exact Or.inl ⟨swap_same h₁'.rotation q1 s1, swap_same h₂'.rotation q2 s2⟩
      · exact Or.inr ⟨swap_same h₁'.rotation q1 s1, swap_same h₂'.rotation q2 s2⟩
      · exfalso
        rcases same_normal_pm s1 with e1 | e1 <;> rcases same_normal_pm s2 with e2 | e2 <;>
          rw [e1, e2] at ho' <;> simp [h₂.unit] at ho'
    rcases key with ⟨k1, k2⟩ | ⟨k1, k2⟩
    · have f1 := swap_solveF hU hV hrel h₁ k1.2
      have f2 := swap_solveF hU hV hrel h₂ k2.2
      refine ⟨Or.inl ⟨k1, k2, f1, f2⟩, fun ty l hl => ?_⟩
      rw [habitPlanes_eq hp] at hl
      rw [habitPlanes_eq hp']
      simp only [hpd, hpd', f1, f2] at hl ⊢
      cases ty <;> simp only at hl ⊢
      all_goals first | (cases hl; done) | skip
      all_goals
        split_ifs at hl ⊢ with hsome
        cases s1 : habitStep eig U (some (Q₁, a₁, n₁)) (solveF U a₁ n₁) with
        | error e => rw [s1] at hl; cases hl
        | ok l1 =>
          rw [s1] at hl
          simp only at hl
          cases s2 : habitStep eig U (some (Q₂, a₂, n₂)) (solveF U a₂ n₂) with
          | error e => rw [s2] at hl; cases hl
          | ok l2 =>
            rw [s2] at hl
            cases hl
            obtain ⟨m1, e1, q1⟩ := swap_habitStep eig h₁ k1.2 Q₁' _ s1
            obtain ⟨m2, e2, q2⟩ := swap_habitStep eig h₂ k2.2 Q₂' _ s2
            simp only [e1, e2]
            exact ⟨_, rfl, q1.append q2⟩
    · have f1 := swap_solveF hU hV hrel h₂ k1.2
      have f2 := swap_solveF hU hV hrel h₁ k2.2
      refine ⟨Or.inr ⟨k1, k2, f1, f2⟩, fun ty l hl => ?_⟩
      rw [habitPlanes_eq hp] at hl
      rw [habitPlanes_eq hp']
      simp only [hpd, hpd', f1, f2] at hl ⊢
      rw [Bool.or_comm] at hl
      cases ty <;> simp only at hl ⊢
      all_goals first | (cases hl; done) | skip
      all_goals
        split_ifs at hl ⊢ with hsome
        cases s1 : habitStep eig U (some (Q₁, a₁, n₁)) (solveF U a₁ n₁) with
        | error e => rw [s1] at hl; cases hl
        | ok l1 =>
          rw [s1] at hl
          simp only at hl
          cases s2 : habitStep eig U (some (Q₂, a₂, n₂)) (solveF U a₂ n₂) with
          | error e => rw [s2] at hl; cases hl
          | ok l2 =>
            rw [s2] at hl
            cases hl
            obtain ⟨m1, e1, q1⟩ := swap_habitStep eig h₁ k2.2 Q₂' _ s1
            obtain ⟨m2, e2, q2⟩ := swap_habitStep eig h₂ k1.2 Q₁' _ s2
            simp only [e1, e2]
            exact ⟨_, rfl, (q2.append q1).trans List.perm_append_comm⟩

/-- Any two variants of a cubic to tetragonal transformation meet the hypotheses of both theorems. -/
example (eig : Mat3 → EigRes) (heig : ∀ A, Aᵀ = A → EigOK (eig A).vals (eig A).vecs A) {α γ : ℝ}
    (h : ClearlyTetragonal α γ) {i j : Fin 3} (hij : i ≠ j) :
    ∃ p p', TwinPair.new eig (tetraStretch α γ i) (tetraStretch α γ j) false = .ok p ∧
      TwinPair.new eig (tetraStretch α γ j) (tetraStretch α γ i) false = .ok p' ∧
      ∃ b, p.isCompound = .ok b ∧ p'.isCompound = .ok b := by
  obtain ⟨hα, hγ⟩ := clearly_pos h
  obtain ⟨vs, hvs, -, -, -, hmem⟩ := C101_variants (t := .code) (Or.inl rfl) h i
  obtain ⟨vs', hvs', -, -, -, hmem'⟩ := C101_variants (t := .code) (Or.inl rfl) h j
  have hi := tetraStretch_spd hα hγ i
  have hj := tetraStretch_spd hα hγ j
  obtain ⟨p, p', hp, hp', -, -, hb⟩ := C103_other_order_partial eig heig .code (tetraStretch α γ i) (tetraStretch α γ j)
    hi hj (tetraStretch_related hij) (tetraStretch_differ h hij) (tetraStretch_connected hα hγ hij) vs vs'
    hvs ((hmem _).2 ⟨j, rfl⟩) hvs' ((hmem' _).2 ⟨i, rfl⟩) false
  have c1 := tetraStretch_clean eig heig h hij
  have c2 := tetraStretch_clean eig heig h hij.symm
  rw [new_ok eig hi hj] at hp
  rw [new_ok eig hj hi] at hp'
  cases hp
  cases hp'
  exact ⟨_, _, new_ok eig hi hj false, new_ok eig hj hi false, (hb c1 c2).1⟩

end Verif.Props
