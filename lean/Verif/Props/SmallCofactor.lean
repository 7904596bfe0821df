import Verif.Props.AxisTwins
import Verif.Props.Cofactor

/-!
# The cofactor conditions for every small stretch of a cube

C114: for the twins of C113 `XI()` and `XII()` are the lengths of `V⁻¹ n` and `V n`, and if the stretch leaves a direction
unstretched, they decide which laminates fit the parent at every volume fraction.
-/

namespace Verif.Props

open Matrix Verif.Model Verif.Spec Verif.Lemmas

local notation "Mat3" => Matrix (Fin 3) (Fin 3) ℝ

variable {U V W : Mat3} {t : Tol}

theorem types_clean (eig : Mat3 → EigRes) (heig : ∀ A, Aᵀ = A → EigOK (eig A).vals (eig A).vecs A) (hV : IsSPD V) (hW : IsSPD W)
    {n : V3} (hn : IsTwinAxis V W n) (hd : ∃ i j, 1 / 10 ^ 12 ≤ |V i j - W i j|)
    (hfar : ∀ x : V3, (W * W) *ᵥ x = (V * V) *ᵥ x → (V *ᵥ x) ⬝ᵥ (V *ᵥ x) = 1 →
      1 / 10 ^ 14 ≤ ((V * V) *ᵥ x) ⬝ᵥ ((V * V) *ᵥ ((V * V) *ᵥ x)) - (((V * V) *ᵥ x) ⬝ᵥ ((V * V) *ᵥ x)) ^ 2) :
    Clean ⟨V, W, sortEig eig (relMetric V W)⟩ ∧ (TwinPair.mk V W (sortEig eig (relMetric V W))).isCompound = .ok false := by
  have hS := setup eig heig hV hW (axis_related hn) hd (axis_connected hV hn)
  obtain ⟨he, -⟩ := sortEig_spec (heig _ (relMetric_symm hV.1 hW.1))
  have hu := isUnit_iff_ne_zero.2 (spd_det_pos hV).ne'
  set e := sortEig eig (relMetric V W) with hedef
  have hv := he.eigenvector 1
  rw [hS.frame.one, one_smul] at hv
  have hx : V *ᵥ (V⁻¹ *ᵥ e.vecs 1) = e.vecs 1 := by rw [mulVec_mulVec, mul_nonsing_inv _ hu, one_mulVec]
  have hVV : (W * W) *ᵥ (V⁻¹ *ᵥ e.vecs 1) = (V * V) *ᵥ (V⁻¹ *ᵥ e.vecs 1) := by
    have h1 := congrArg (V *ᵥ ·) hv
    simp only [relMetric, mulVec_mulVec] at h1
    rw [← mulVec_mulVec _ V V, hx, mulVec_mulVec, ← h1]
    congr 1
    simp only [← Matrix.mul_assoc]
    rw [mul_nonsing_inv _ hu, Matrix.one_mul]
  have hf := hfar _ hVV (by rw [hx]; exact he.unit 1)
  obtain ⟨hcl, hcomp, -⟩ := far_pair hS (by
    rw [← mulVec_mulVec _ V V, hx] at hf
    exact hf)
  exact ⟨hcl, hcomp⟩

/-- the only axis of a pair that is not compound -/
theorem only_axis (eig : Mat3 → EigRes) (heig : ∀ A, Aᵀ = A → EigOK (eig A).vals (eig A).vecs A) (hV : IsSPD V) (hW : IsSPD W)
    {n : V3} (hn : IsTwinAxis V W n) (hd : ∃ i j, 1 / 10 ^ 12 ≤ |V i j - W i j|)
    (hc : (TwinPair.mk V W (sortEig eig (relMetric V W))).isCompound = .ok false) :
    ∃ e, (e = n ∨ e = -n) ∧ (TwinPair.mk V W (sortEig eig (relMetric V W))).ax = .ok [some e] := by
  obtain ⟨p, l, hp, hl, hne, hall, -⟩ := C69_axes eig heig V W hV hW (axis_related hn) hd (axis_connected hV hn) true
  rw [new_ok eig hV hW] at hp
  cases hp
  have hlen : l.length ≤ 1 := by simpa [TwinPair.isCompound, hl] using hc
  cases l with
  | nil => exact absurd rfl hne
  | cons x xs =>
    have hxs : xs = [] := by
      cases xs with
      | nil => rfl
      | cons y ys => simp at hlen
    subst hxs
    rcases hall n hn with h | h <;> rw [List.mem_singleton] at h
    · exact ⟨n, .inl rfl, by rw [hl, h]⟩
    · exact ⟨-n, .inr rfl, by rw [hl, h]⟩

theorem vnorm_neg (x : V3) : vnorm (-x) = vnorm x := by
  unfold vnorm
  rw [neg_dotProduct, dotProduct_neg, neg_neg]

/-- **C114**, the parameters: for the twins of type I and II of `C113_types`, `XI()` is the length of `V⁻¹ n` and `XII()` that of
`V n`. -/
theorem C114_parameters (eig : Mat3 → EigRes) (heig : ∀ A, Aᵀ = A → EigOK (eig A).vals (eig A).vecs A)
    (h : SmallStretch U) (hc : ClearSymmetry U) {vs : List Mat3} (hvs : Mart.getVariants t ⟨some U, cubicR⟩ = .ok vs)
    (ht : t = .code ∨ t = .exact) (hV : V ∈ vs) (hW : W ∈ vs) (hne : V ≠ W) {n : V3} (hn : IsTwinAxis V W n)
    (hy : ClearlyNotPrincipal V (crossDirection V n)) (skip : Bool) :
    ∃ P, TwinPair.new eig V W skip = .ok P ∧ P.xI = .ok (some (Real.sqrt ((V⁻¹ *ᵥ n) ⬝ᵥ (V⁻¹ *ᵥ n)))) ∧
      P.xII = .ok (some (Real.sqrt ((V *ᵥ n) ⬝ᵥ (V *ᵥ n)))) := by
  obtain ⟨iV, iW, -⟩ := variant_of h hc hvs ht hV hW
  have sV := image_spd h iV
  have sW := image_spd h iW
  have hd := image_far h hc iV iW hne
  obtain ⟨-, hcomp⟩ := types_clean eig heig sV sW hn hd (clear_far (image_small h iV) hn hne hy)
  obtain ⟨e, he, hax⟩ := only_axis eig heig sV sW hn hd hcomp
  have h1 : vnorm (V⁻¹ *ᵥ e) = vnorm (V⁻¹ *ᵥ n) := by
    rcases he with rfl | rfl
    · rfl
    · rw [mulVec_neg, vnorm_neg]
  have h2 : vnorm (V *ᵥ e) = vnorm (V *ᵥ n) := by
    rcases he with rfl | rfl
    · rfl
    · rw [mulVec_neg, vnorm_neg]
  refine ⟨_, new_ok eig sV sW skip, ?_, ?_⟩
  · simp only [TwinPair.xI, hcomp, TwinPair.firstAx, hax, Option.map_some, h1]
    rfl
  · simp only [TwinPair.xII, hcomp, TwinPair.firstAx, hax, Option.map_some, h2]
    rfl

/-- **C114**, the cofactor conditions: if moreover `V` leaves a direction unstretched, then for the two twins `(Q₁, a₁, n₁)` and
`(Q₂, a₂, n₂)` of `twinparam()` the first value of `direct_cof()` vanishes iff `V⁻¹ n` has length one iff the laminates of the
first twin fit the parent at every volume fraction, and the second one vanishes iff `V n` has length one iff those of the
second twin do.  Before the rounding of `twinparam()`. -/
theorem C114_exact (eig : Mat3 → EigRes) (heig : ∀ A, Aᵀ = A → EigOK (eig A).vals (eig A).vecs A)
    (h : SmallStretch U) (hc : ClearSymmetry U) {vs : List Mat3} (hvs : Mart.getVariants t ⟨some U, cubicR⟩ = .ok vs)
    (ht : t = .code ∨ t = .exact) (hV : V ∈ vs) (hW : W ∈ vs) (hne : V ≠ W) {n : V3} (hn : IsTwinAxis V W n)
    (hy : ClearlyNotPrincipal V (crossDirection V n)) (hun : HasUnstretched V) (skip : Bool) :
    ∃ P Q₁ a₁ n₁ Q₂ a₂ n₂ c₁ c₂, TwinPair.new eig V W skip = .ok P ∧
      P.twinParam eig t id false = .ok (some (some (Q₁, a₁, n₁), some (Q₂, a₂, n₂))) ∧
      SolvesTwin V W Q₁ a₁ n₁ ∧ SolvesTwin V W Q₂ a₂ n₂ ∧
      P.directCof eig t id false = .ok (some c₁, some c₂) ∧ c₁ = -cofactorValue V a₁ n₁ ∧ c₂ = -cofactorValue V a₂ n₂ ∧
      (c₁ = 0 ↔ (V⁻¹ *ᵥ n) ⬝ᵥ (V⁻¹ *ᵥ n) = 1) ∧ ((∀ f, LaminateFits V a₁ n₁ f) ↔ (V⁻¹ *ᵥ n) ⬝ᵥ (V⁻¹ *ᵥ n) = 1) ∧
      (c₂ = 0 ↔ (V *ᵥ n) ⬝ᵥ (V *ᵥ n) = 1) ∧ ((∀ f, LaminateFits V a₂ n₂ f) ↔ (V *ᵥ n) ⬝ᵥ (V *ᵥ n) = 1) := by
  obtain ⟨iV, iW, ws, hws, hm⟩ := variant_of h hc hvs ht hV hW
  have sV := image_spd h iV
  have sW := image_spd h iW
  have hd := image_far h hc iV iW hne
  have hrel := axis_related hn
  have hcon := axis_connected sV hn
  obtain ⟨hcl, hcomp⟩ := types_clean eig heig sV sW hn hd (clear_far (image_small h iV) hn hne hy)
  obtain ⟨P, p1, p2⟩ := C74_all_fractions_partial eig heig t V W sV sW hrel hd hcon ws hws hm skip
  obtain ⟨P', q1, q2⟩ := C74_parameters_partial eig heig t V W sV sW hrel hd hcon ws hws hm skip hun
  obtain ⟨P₀, r1, r2⟩ := C55_exact eig heig t V W sV sW hrel hd hcon ws hws hm skip
  obtain ⟨P₁, s1, s2, s3⟩ := C114_parameters eig heig h hc hvs ht hV hW hne hn hy skip
  rw [new_ok eig sV sW] at p1 q1 r1 s1
  cases p1
  cases q1
  cases r1
  cases s1
  obtain ⟨Q₁, a₁, n₁, Q₂, a₂, n₂, c₁, c₂, k1, k2, k5, k6, k3, k4⟩ := p2 hcl
  obtain ⟨x₁, x₂, d₁, d₂, l1, l2, l3, l4, l5⟩ := q2 hcl hcomp
  obtain ⟨Q₁', a₁', n₁', Q₂', a₂', n₂', m1, m2, m3⟩ := r2 hcl
  rw [k1] at m1
  rw [k2] at l3
  rw [s2] at l1
  rw [s3] at l2
  cases m1
  cases l3
  cases l1
  cases l2
  rw [Real.sqrt_eq_one] at l4 l5
  exact ⟨_, Q₁, a₁, n₁, Q₂, a₂, n₂, c₁, c₂, new_ok eig sV sW skip, k1, m2, m3, k2, k5, k6, l4,
    by rw [← k3, and_iff_left hun, l4], l5, by rw [← k4, and_iff_left hun, l5]⟩

/-! ## The hypotheses are met -/

/-- a thousand times a stretch with no symmetry that leaves the direction `(-3, 1, 10)` unstretched -/
def skew : Matrix (Fin 3) (Fin 3) ℤ := !![1015, 5, 4; 5, 995, 2; 4, 2, 1001]

noncomputable def skewStretch : Mat3 := (1 / 10 ^ 3 : ℝ) • realOf skew

theorem skew_entries : skewStretch = !![1.015, 0.005, 0.004; 0.005, 0.995, 0.002; 0.004, 0.002, 1.001] := by
  ext i j
  fin_cases i <;> fin_cases j <;> simp [skewStretch, realOf, skew] <;> norm_num

theorem skew_cases : ∀ R ∈ cubicLaue, R * skew * Rᵀ = skew ∨ ∃ i j, 1 ≤ |(R * skew * Rᵀ) i j - skew i j| := by
  unfold cubicLaue skew; decide +kernel

theorem skew_small : SmallStretch skewStretch := by
  rw [skew_entries]
  constructor
  · ext i j
    fin_cases i <;> fin_cases j <;> simp
  · intro i
    rw [Fin.sum_univ_three]
    fin_cases i <;> simp [Matrix.one_apply] <;> norm_num [abs_of_pos, abs_of_neg]

theorem skew_clear : ClearSymmetry skewStretch := by
  intro R hR
  have e : realOf R * skewStretch * (realOf R)ᵀ = (1 / 10 ^ 3 : ℝ) • realOf (R * skew * Rᵀ) := by
    simp only [skewStretch, realOf_eq, toR_mul, toR_transpose, Matrix.mul_smul, Matrix.smul_mul]
  rw [e, skewStretch]
  rcases skew_cases R (cube_iff.1 hR) with h | ⟨i, j, h⟩
  · exact .inl (by rw [h])
  · refine .inr ⟨i, j, ?_⟩
    have h1 : (1 : ℝ) ≤ |((R * skew * Rᵀ) i j : ℝ) - skew i j| := by exact_mod_cast h
    simp only [Matrix.smul_apply, realOf, Matrix.map_apply, smul_eq_mul, ← mul_sub, abs_mul]
    rw [abs_of_pos (by norm_num : (0 : ℝ) < 1 / 10 ^ 3)]
    linarith

example : SmallStretch skewStretch ∧ ClearSymmetry skewStretch ∧ HasUnstretched skewStretch ∧
    ClearlyNotPrincipal skewStretch (crossDirection skewStretch (Pi.single 0 1)) := by
  refine ⟨skew_small, skew_clear, ⟨![-3, 1, 10], fun h => ?_, ?_⟩, ?_⟩
  · have := congrFun h 1
    simp at this
  · rw [skew_entries]
    ext i
    fin_cases i <;> simp [mulVec, dotProduct, Fin.sum_univ_three] <;> norm_num
  · rw [skew_entries]
    simp [ClearlyNotPrincipal, crossDirection, cross_apply, dotProduct, Fin.sum_univ_three]
    norm_num

/-- The stretch and its image under the half turn about the first cube axis are two variants. -/
example : ∃ vs, Mart.getVariants .code ⟨some skewStretch, cubicR⟩ = .ok vs ∧ skewStretch ∈ vs ∧
    realOf (edgeTurn 0) * skewStretch * (realOf (edgeTurn 0))ᵀ ∈ vs ∧
    skewStretch ≠ realOf (edgeTurn 0) * skewStretch * (realOf (edgeTurn 0))ᵀ ∧
    IsTwinAxis skewStretch (realOf (edgeTurn 0) * skewStretch * (realOf (edgeTurn 0))ᵀ) (Pi.single 0 1) := by
  obtain ⟨lg, vs, idx, -, -, h1, -, -, h3, -⟩ := C107_variants skew_small (.inr ⟨rfl, skew_clear⟩)
  refine ⟨vs, h1, (h3 _).2 ⟨1, cube_iff.2 (by decide +kernel), ?_⟩, (h3 _).2 ⟨edgeTurn 0, cube_iff.2 (by decide +kernel), rfl⟩,
    fun he => ?_, by simp, by rw [edgeTurn_eq, realOf_eq]⟩
  · rw [realOf_eq 1, toR_one]
    simp
  · have e1 := congrFun (congrFun he 0) 1
    rw [skew_entries] at e1
    simp [realOf_eq, toR, edgeTurn, Matrix.mul_apply, Fin.sum_univ_three] at e1
    norm_num at e1

end Verif.Props
