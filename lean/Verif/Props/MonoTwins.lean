import Verif.Props.Monoclinic

/-!
# Twins of cubic to monoclinic transformations

C105: which of the pairs of the twelve variants are twinnable, and how.
-/

namespace Verif.Props

open Matrix Verif.Model Verif.Spec Verif.Lemmas

local notation "Mat3" => Matrix (Fin 3) (Fin 3) ℝ

variable {p q r d s y : ℝ} {t : Tol} {i j k : Fin 3}

/-! ### pairs with a common principal direction and stretch -/

/-- Two stretches with a common principal direction and equal stretch along it: both tests of `ax()` are passed. -/
theorem shared_pair {U V : Mat3} {e : EigRes} (h : Setup U V e) (he : EigOK e.vals e.vecs (relMetric U V)) {u : V3} {d : ℝ}
    (hu : u ≠ 0) (hd : d ≠ 0) (hUu : U *ᵥ u = d • u) (hVu : V *ᵥ u = d • u) :
    Clean ⟨U, V, e⟩ ∧ (TwinPair.mk U V e).isCompound = .ok true ∧ (TwinPair.mk U V e).isTypeI = .ok false := by
  classical
  have hun := isUnit_iff_ne_zero.2 (spd_det_pos h.spdU).ne'
  have hUi : U⁻¹ *ᵥ u = d⁻¹ • u := by
    have : U⁻¹ *ᵥ (U *ᵥ u) = u := by rw [mulVec_mulVec, nonsing_inv_mul _ hun, one_mulVec]
    rw [hUu, mulVec_smul] at this
    rw [← this, smul_smul, inv_mul_cancel₀ hd, one_smul, this]
  have hM : relMetric U V *ᵥ u = u := by
    rw [relMetric, ← mulVec_mulVec, ← mulVec_mulVec, ← mulVec_mulVec, hUi, mulVec_smul, hVu, mulVec_smul, mulVec_smul,
      mulVec_smul, hVu, mulVec_smul, mulVec_smul, hUi, smul_smul, smul_smul, smul_smul]
    rw [show d⁻¹ * d * d * d⁻¹ = 1 by field_simp, one_smul]
  have h1 : e.vals 1 = 1 := h.frame.one
  have h2 : 1 < e.vals 2 := h.frame.gt
  have h0 : e.vals 0 ≠ 1 := by
    intro h0
    have := h.frame.prod
    rw [h0] at this
    linarith
  have perp : ∀ l, e.vals l ≠ 1 → u ⬝ᵥ e.vecs l = 0 := by
    intro l hl
    have e1 : u ⬝ᵥ relMetric U V *ᵥ e.vecs l = e.vals l * (u ⬝ᵥ e.vecs l) := by
      rw [he.eigenvector, dotProduct_smul, smul_eq_mul]
    rw [sym_dot (relMetric_symm h.spdU.1 h.spdV.1), hM] at e1
    have : (e.vals l - 1) * (u ⬝ᵥ e.vecs l) = 0 := by linarith
    exact (mul_eq_zero.1 this).resolve_left (sub_ne_zero.2 hl)
  have perp' : ∀ l, e.vals l ≠ 1 → u ⬝ᵥ (U *ᵥ e.vecs l) = 0 := by
    intro l hl
    rw [sym_dot h.spdU.1, hUu, smul_dotProduct, perp l hl, smul_zero]
  have p0 := perp' 0 h0
  have p2 := perp' 2 h2.ne'
  have hpar : (d * d) • u = (u ⬝ᵥ (U *ᵥ e.vecs 1)) • (U *ᵥ e.vecs 1) := by
    have e1 : (U * U) *ᵥ u = (d * d) • u := by rw [← mulVec_mulVec, hUu, mulVec_smul, hUu, smul_smul]
    rw [← e1, h.frame.sqU, Fin.sum_univ_three, add_mulVec, add_mulVec, vecMulVec_mulVec, vecMulVec_mulVec, vecMulVec_mulVec,
      dotProduct_comm _ u, dotProduct_comm _ u, dotProduct_comm _ u, p0, p2]
    simp
  have hc : u ⬝ᵥ (U *ᵥ e.vecs 1) ≠ 0 := by
    intro h0
    rw [h0, zero_smul] at hpar
    exact hu ((smul_eq_zero.1 hpar).resolve_left (mul_ne_zero hd hd))
  have zero : ∀ l, u ⬝ᵥ (U *ᵥ e.vecs l) = 0 → (U *ᵥ e.vecs 1) ⬝ᵥ (U *ᵥ e.vecs l) = 0 := by
    intro l hl
    have := congrArg (· ⬝ᵥ (U *ᵥ e.vecs l)) hpar
    simp only [smul_dotProduct, hl, smul_zero] at this
    exact (smul_eq_zero.1 this.symm).resolve_left hc
  have ht : ∀ s, axTest U e s = 0 := by
    intro s
    rw [axTest, zero 2 p2, zero 0 p0]
    ring
  obtain ⟨r1, x1, hr1, hx1, hp1, ha1⟩ := axis_eval h (s := -1) (by norm_num)
  obtain ⟨r2, x2, hr2, hx2, hp2, ha2⟩ := axis_eval h (s := 1) (by norm_num)
  have hax : (TwinPair.mk U V e).isCompound = .ok true := by
    have : ∃ x y, (TwinPair.mk U V e).ax = .ok [x, y] := by
      unfold TwinPair.ax
      rw [if_neg (by rw [h.twinnable]; simp), ha1, ha2, ht, ht, abs_zero, if_pos small_pos, if_pos small_pos]
      exact ⟨_, _, rfl⟩
    obtain ⟨x, y, hx⟩ := this
    simp [TwinPair.isCompound, hx]
  exact ⟨fun s _ _ => ht s, hax, by simp [TwinPair.isTypeI, hax]⟩

/-! ### rank-one connections -/

theorem relMetric_det_sub {U V : Mat3} (hU : U.det ≠ 0) :
    (relMetric U V - 1).det * (U.det * U.det) = (V * V - U * U).det := by
  have hu := isUnit_iff_ne_zero.2 hU
  have : U * (relMetric U V - 1) * U = V * V - U * U := by
    rw [relMetric, mul_sub, sub_mul, Matrix.mul_one]
    congr 1
    calc U * (U⁻¹ * V * (V * U⁻¹)) * U = U * U⁻¹ * V * V * (U⁻¹ * U) := by simp only [Matrix.mul_assoc]
      _ = V * V := by rw [mul_nonsing_inv _ hu, nonsing_inv_mul _ hu, Matrix.one_mul, Matrix.mul_one]
  rw [← this, det_mul, det_mul]
  ring

theorem eigenvalues_sub {M : Mat3} {l : Fin 3 → ℝ} (h : IsEigenvalues M l) :
    (M - 1).det = (l 0 - 1) * (l 1 - 1) * (l 2 - 1) := by
  have h1 := congrArg (Polynomial.eval 1) h
  rw [Matrix.eval_charpoly, Polynomial.eval_prod, Fin.prod_univ_three] at h1
  simp only [Polynomial.eval_sub, Polynomial.eval_X, Polynomial.eval_C] at h1
  have h2 : (M - 1).det = -(Matrix.scalar (Fin 3) (1 : ℝ) - M).det := by
    rw [← neg_sub, det_neg]
    norm_num
  rw [h2, h1]
  ring

theorem eig_value {U V : Mat3} (hU : IsSPD U) (hV : IsSPD V) {l : ℝ} {x : V3} (hx : x ⬝ᵥ x = 1)
    (he : relMetric U V *ᵥ x = l • x) :
    ∃ z : V3, (U *ᵥ z) ⬝ᵥ (U *ᵥ z) = 1 ∧ l = (V *ᵥ z) ⬝ᵥ (V *ᵥ z) := by
  have hu := isUnit_iff_ne_zero.2 (spd_det_pos hU).ne'
  refine ⟨U⁻¹ *ᵥ x, ?_, ?_⟩
  · rw [mulVec_mulVec, mul_nonsing_inv _ hu, one_mulVec, hx]
  · have h1 : x ⬝ᵥ relMetric U V *ᵥ x = l := by rw [he, dotProduct_smul, hx, smul_eq_mul, mul_one]
    have h2 : V *ᵥ (U⁻¹ *ᵥ x) = (V * U⁻¹) *ᵥ x := mulVec_mulVec _ _ _
    rw [← h1, relMetric_gram hU.1 hV.1, h2, ← mulVec_mulVec, dotProduct_mulVec, vecMul_transpose]

/-- Two stretches of equal volume are rank-one connected if and only if their squares agree on a line. -/
theorem connected_iff_det {U V : Mat3} (hU : IsSPD U) (hV : IsSPD V) (hdet : U.det = V.det) :
    RankOneConnected U V ↔ (V * V - U * U).det = 0 := by
  obtain ⟨eig, heig⟩ := exists_eig
  obtain ⟨p, hp, hpU, hpV, hl, hiff⟩ := C54_criterion eig heig U V hU hV false
  rw [← hiff]
  rw [new_ok eig hU hV] at hp
  cases hp
  obtain ⟨he, hm⟩ := sortEig_spec (heig _ (relMetric_symm hU.1 hV.1))
  set e := sortEig eig (relMetric U V)
  have hUd := spd_det_pos hU
  have h1 := relMetric_det_sub (V := V) hUd.ne'
  rw [eigenvalues_sub he.eigenvalues] at h1
  have h2 : e.vals 0 * e.vals 1 * e.vals 2 = 1 := by
    rw [← det_three he.eigenvalues, relMetric, det_mul, det_mul, det_mul, det_nonsing_inv, Ring.inverse_eq_inv', ← hdet]
    field_simp
  have pos : ∀ l, 0 ≤ e.vals l := by
    intro l
    obtain ⟨z, -, hz⟩ := eig_value hU hV (he.unit l) (he.eigenvector l)
    rw [hz]
    exact dotProduct_self_star_nonneg (V *ᵥ z)
  have h01 : e.vals 0 ≤ e.vals 1 := hm (by decide)
  have h12 : e.vals 1 ≤ e.vals 2 := hm (by decide)
  rw [← h1]
  constructor
  · intro h; rw [show e.vals 1 = 1 from h]; ring
  · intro h
    have h3 := (mul_eq_zero.1 h).resolve_right (mul_pos hUd hUd).ne'
    show e.vals 1 = 1
    have p0 := pos 0
    rcases mul_eq_zero.1 h3 with h3 | h3
    · rcases mul_eq_zero.1 h3 with h3 | h3
      · have h0 : e.vals 0 = 1 := by linarith
        rw [h0] at h2 h01
        nlinarith
      · linarith
    · have h0 : e.vals 2 = 1 := by linarith
      rw [h0] at h2 h12
      nlinarith

/-! ### pairs with one axis -/

/-- `p` is twinnable and not compound; `twinparam()` returns, up to rounding, a twin of type I, whose plane has the normal
`e`, and a twin of type II, whose shear is parallel to `U e`; every solution of the twinning equation is one of these, up
to the sign of shear and normal. -/
def TypeTwins (eig : Mat3 → EigRes) (t : Tol) (rnd : ℝ → ℝ) (p : TwinPair) (U V : Mat3) (e : V3) : Prop :=
  p.isTwinnable = true ∧ p.isCompound = .ok false ∧ p.isTypeI = .ok true ∧
    ∃ Q₁ a₁ Q₂ n₂ R₁ R₂, ∃ τ ρ : ℝ, (τ = 1 ∨ τ = -1) ∧
      p.twinParam eig t rnd false = .ok (some
        (some (R₁, (fun l => rnd (a₁ l)), fun l => rnd (τ * e l)),
         some (R₂, (fun l => rnd (ρ * (U *ᵥ e) l)), fun l => rnd (n₂ l)))) ∧
      R₁ * V - U = vecMulVec (fun l => rnd (a₁ l)) (fun l => rnd (τ * e l)) ∧
      R₂ * V - U = vecMulVec (fun l => rnd (ρ * (U *ᵥ e) l)) (fun l => rnd (n₂ l)) ∧
      SolvesTwin U V Q₁ a₁ (τ • e) ∧ SolvesTwin U V Q₂ (ρ • U *ᵥ e) n₂ ∧
      ∀ Q a n, SolvesTwin U V Q a n → (Q = Q₁ ∧ SameUpToSign a₁ (τ • e) a n) ∨ (Q = Q₂ ∧ SameUpToSign (ρ • U *ᵥ e) n₂ a n)

theorem type_twins (eig : Mat3 → EigRes) (heig : ∀ A, Aᵀ = A → EigOK (eig A).vals (eig A).vecs A) (t : Tol) (rnd : ℝ → ℝ)
    {U V : Mat3} {ax : V3} (hU : IsSPD U) (hV : IsSPD V) (hax : IsTwinAxis U V ax) (hd : ∃ i j, 1 / 10 ^ 12 ≤ |U i j - V i j|)
    (hfar : ∀ x : V3, (V * V) *ᵥ x = (U * U) *ᵥ x → (U *ᵥ x) ⬝ᵥ (U *ᵥ x) = 1 →
      1 / 10 ^ 14 ≤ ((U * U) *ᵥ x) ⬝ᵥ ((U * U) *ᵥ ((U * U) *ᵥ x)) - (((U * U) *ᵥ x) ⬝ᵥ ((U * U) *ᵥ x)) ^ 2)
    {vs : List M3} (hvs : Mart.getVariants t ⟨some U, cubicR⟩ = .ok vs) (hmem : V ∈ vs) (skip : Bool) :
    ∃ p, TwinPair.new eig U V skip = .ok p ∧ TypeTwins eig t rnd p U V ax := by
  have hne := differ_ne hd
  have hrel := axis_related hax
  have hc := axis_connected hU hax
  have hS := setup eig heig hU hV hrel hd hc
  obtain ⟨he, -⟩ := sortEig_spec (heig _ (relMetric_symm hU.1 hV.1))
  have hu := isUnit_iff_ne_zero.2 (spd_det_pos hU).ne'
  set e := sortEig eig (relMetric U V) with hedef
  have hv := he.eigenvector 1
  rw [hS.frame.one, one_smul] at hv
  have hx : U *ᵥ (U⁻¹ *ᵥ e.vecs 1) = e.vecs 1 := by rw [mulVec_mulVec, mul_nonsing_inv _ hu, one_mulVec]
  have hVV : (V * V) *ᵥ (U⁻¹ *ᵥ e.vecs 1) = (U * U) *ᵥ (U⁻¹ *ᵥ e.vecs 1) := by
    have h1 := congrArg (U *ᵥ ·) hv
    simp only [relMetric, mulVec_mulVec] at h1
    rw [← mulVec_mulVec _ U U, hx, mulVec_mulVec, ← h1]
    congr 1
    simp only [← Matrix.mul_assoc]
    rw [mul_nonsing_inv _ hu, Matrix.one_mul]
  have hf := hfar _ hVV (by rw [hx]; exact he.unit 1)
  obtain ⟨hcl, hcomp, hty⟩ := far_pair hS (by
    rw [← mulVec_mulVec _ U U, hx] at hf
    exact hf)
  obtain ⟨Q₁, a₁, x, Q₂, n₂, ρ, hpar, h1, h2, ho, hxa⟩ := twinParam_detail eig heig t rnd hU hV hrel hd hc hvs
    hmem (new_ok eig hU hV skip) hcl
  have hpm : x = ax ∨ x = -ax := by
    obtain ⟨q, hq, hc'⟩ := C69_compound eig heig _ _ hU hV hrel hd hc skip
    rw [new_ok eig hU hV] at hq
    cases hq
    obtain ⟨bb, hb1, -, hb3⟩ := hc' hcl
    rw [hcomp] at hb1
    cases hb1
    by_contra hcon
    push Not at hcon
    exact Bool.false_ne_true (hb3.2 ⟨_, _, hax, hxa, hcon.1, hcon.2⟩)
  obtain ⟨τ, hτ, rfl⟩ : ∃ τ : ℝ, (τ = 1 ∨ τ = -1) ∧ x = τ • ax := by
    rcases hpm with h | h
    · exact ⟨1, .inl rfl, by rw [h, one_smul]⟩
    · exact ⟨-1, .inr rfl, by rw [h, neg_one_smul]⟩
  have hall := fun Q a n hs => twins_all hU hV hne hrel h1 h2 ho (Q := Q) (a := a) (n := n) hs
  rw [mulVec_smul, smul_smul] at hpar h2 hall
  have huV := isUnit_iff_ne_zero.2 (spd_det_pos hV).ne'
  have hR : ∀ a n : V3, (U + outer a n) * V⁻¹ * V - U = vecMulVec a n := fun a n => by
    rw [Matrix.mul_assoc, nonsing_inv_mul _ huV, Matrix.mul_one, outer_eq, add_sub_cancel_left]
  exact ⟨_, new_ok eig hU hV skip, hS.twinnable, hcomp, hty, Q₁, a₁, Q₂, n₂, _, _, τ, ρ * τ, hτ, hpar, hR _ _, hR _ _,
    h1, h2, hall⟩

/-! ### compound pairs -/

/-- `p` is twinnable and compound; `twinparam()` returns, up to rounding, two twins with perpendicular planes, and every
solution of the twinning equation is one of these, up to the sign of shear and normal. -/
def CompoundTwins (eig : Mat3 → EigRes) (t : Tol) (rnd : ℝ → ℝ) (p : TwinPair) (U V : Mat3) : Prop :=
  p.isTwinnable = true ∧ p.isCompound = .ok true ∧ p.isTypeI = .ok false ∧
    ∃ Q₁ a₁ n₁ Q₂ a₂ n₂ R₁ R₂, p.twinParam eig t rnd false = .ok (some
        (some (R₁, (fun l => rnd (a₁ l)), fun l => rnd (n₁ l)),
         some (R₂, (fun l => rnd (a₂ l)), fun l => rnd (n₂ l)))) ∧
      R₁ * V - U = vecMulVec (fun l => rnd (a₁ l)) (fun l => rnd (n₁ l)) ∧
      R₂ * V - U = vecMulVec (fun l => rnd (a₂ l)) (fun l => rnd (n₂ l)) ∧
      SolvesTwin U V Q₁ a₁ n₁ ∧ SolvesTwin U V Q₂ a₂ n₂ ∧ n₁ ⬝ᵥ n₂ = 0 ∧
      ∀ Q a n, SolvesTwin U V Q a n → (Q = Q₁ ∧ SameUpToSign a₁ n₁ a n) ∨ (Q = Q₂ ∧ SameUpToSign a₂ n₂ a n)

theorem compound_twins (eig : Mat3 → EigRes) (heig : ∀ A, Aᵀ = A → EigOK (eig A).vals (eig A).vecs A) (t : Tol) (rnd : ℝ → ℝ)
    {U V : Mat3} {u : V3} {d : ℝ} (hU : IsSPD U) (hV : IsSPD V) (hrel : Related U V)
    (hd : ∃ i j, 1 / 10 ^ 12 ≤ |U i j - V i j|) (hu : u ≠ 0) (hd0 : d ≠ 0) (hUu : U *ᵥ u = d • u) (hVu : V *ᵥ u = d • u)
    {vs : List M3} (hvs : Mart.getVariants t ⟨some U, cubicR⟩ = .ok vs) (hmem : V ∈ vs) (skip : Bool) :
    ∃ p, TwinPair.new eig U V skip = .ok p ∧ CompoundTwins eig t rnd p U V := by
  have hc : RankOneConnected U V := by
    rw [connected_iff_det hU hV (related_facts hrel).1]
    rw [← Matrix.exists_mulVec_eq_zero_iff]
    exact ⟨u, hu, by rw [sub_mulVec, ← mulVec_mulVec, ← mulVec_mulVec, hUu, hVu, mulVec_smul, mulVec_smul, hUu, hVu, sub_self]⟩
  have hS := setup eig heig hU hV hrel hd hc
  obtain ⟨he, -⟩ := sortEig_spec (heig _ (relMetric_symm hU.1 hV.1))
  obtain ⟨hcl, hcomp, hty⟩ := shared_pair hS he hu hd0 hUu hVu
  obtain ⟨p, hp, h⟩ := C103_all_twins eig heig t rnd U V hU hV hrel hd hc vs hvs hmem skip
  have hp' := hp
  rw [new_ok eig hU hV] at hp'
  cases hp'
  exact ⟨_, hp, hS.twinnable, hcomp, hty, h hcl⟩

/-! ### the monoclinic stretches -/

theorem mm_comm (h : i ≠ j) (p q s d : ℝ) : mm i j p q s d = mm j i q p s d := by
  obtain ⟨k, h⟩ := axes_exist h
  obtain ⟨e1, e2, e3, e4, e5, e6, e7, e8, e9⟩ := mm_at h p q s d
  obtain ⟨f1, f2, f3, f4, f5, f6, f7, f8, f9⟩ := mm_at h.swap q p s d
  ext l m
  rcases h.all l with rfl | rfl | rfl <;> rcases h.all m with rfl | rfl | rfl <;> simp [*]

theorem mm_apart (h : Mono p q s d) {i' j' : Fin 3} (hij : i ≠ j) (hij' : i' ≠ j') (hy : |y| = |s|)
    (hne : ¬ (i = i' ∧ j = j' ∧ s = y)) : ∃ l m, 1 / 10 ^ 12 ≤ |mm i j p q s d l m - mm i' j' p q y d l m| := by
  obtain ⟨l, m, h1, -⟩ := mm_gap h hij hij' rfl hy hne
  exact ⟨l, m, le_trans (by norm_num) h1⟩

theorem cubic_rotation {R : Matrix (Fin 3) (Fin 3) ℤ} (hR : R ∈ cubicLaue) : IsRotation (toR R) := by
  obtain ⟨h1, h2⟩ := (C19_cubic_complete R).1 hR
  refine ⟨?_, ?_⟩
  · rw [← toR_transpose, ← toR_mul]; first | rw [h1, toR_one] | rw [mul_eq_one_comm.1 h1, toR_one]
  · have : (toR R).det = ((R.det : ℤ) : ℝ) := by
      rw [toR]; exact (RingHom.map_det (Int.castRingHom ℝ) R).symm
    rw [this, h2, Int.cast_one]

theorem mm_related {i' j' : Fin 3} (hij : i ≠ j) (hij' : i' ≠ j') (hy : y = s ∨ y = -s) :
    Related (mm i j p q s d) (mm i' j' p q y d) := by
  obtain ⟨⟨R, hR, hi, hj, ho⟩, S, hS, hi', hj', ho'⟩ := cubic_mono_transitive i j hij i' j' hij'
  rcases hy with rfl | rfl
  · exact ⟨toR R, cubic_rotation hR, by rw [mm_turn (cubic_ortho R hR) hij hij' hi hj ho]; simp⟩
  · exact ⟨toR S, cubic_rotation hS, by rw [mm_turn (cubic_ortho S hS) hij hij' hi' hj' ho']; simp⟩

theorem faceTurn_mono : ∀ i j k : Fin 3, i ≠ j → i ≠ k → j ≠ k → ∀ e ∈ [(1 : ℤ), -1],
    faceTurn j k e * (faceTurn j k e)ᵀ = 1 ∧ faceTurn j k e * unitAt i * (faceTurn j k e)ᵀ = unitAt i ∧
    faceTurn j k e * unitAt j * (faceTurn j k e)ᵀ = unitAt k ∧
    faceTurn j k e * offAt i j * (faceTurn j k e)ᵀ = (-e) • offAt i k := by
  decide +kernel

theorem mono_face_axis (h : Axes i j k) {e : ℝ} (he : e = 1 ∨ e = -1) (hy : y = -e * s) :
    IsTwinAxis (mm i j p q s d) (mm i k p q y d) (diagonalNormal j k e) := by
  have key : ∀ z : ℤ, (z = 1 ∨ z = -1) → IsTwinAxis (mm i j p q s d) (mm i k p q (-z * s) d) (diagonalNormal j k z) := by
    intro z hz
    have hss : z * z = 1 := by rcases hz with rfl | rfl <;> rfl
    obtain ⟨h1, h2, h3, h4⟩ := faceTurn_mono i j k h.ij h.ik h.jk z (by simpa using hz)
    refine ⟨diagonalNormal_unit h.jk (by exact_mod_cast hss), ?_⟩
    rw [faceTurn_eq h.jk hss, mm_turn h1 h.ij h.ik h2 h3 h4]
    push_cast
    rfl
  subst hy
  rcases he with rfl | rfl
  · simpa using key 1 (.inl rfl)
  · simpa using key (-1) (.inr rfl)

/-- the number that decides whether the third principal stretch is a repeated one -/
theorem rep_sq (p q s d : ℝ) :
    (d * d - (p * p + s * s)) * (d * d - (q * q + s * s)) - (s * (p + q)) * (s * (p + q)) =
      ((d - p) * (d - q) - s * s) * ((p + d) * (q + d) - s * s) := by
  ring

theorem mono_far_scalar {P Q S D c W X Y : ℝ} (hX : X = c * (D - Q)) (hY : Y = c * S) (hW : W = Y * Y)
    (hN : X * (P * X + S * Y) + Y * (S * X + Q * Y) + D * W = 1) :
    ((P * X + S * Y) * (P * (P * X + S * Y) + S * (S * X + Q * Y)) +
        (S * X + Q * Y) * (S * (P * X + S * Y) + Q * (S * X + Q * Y)) + D * D * D * W) -
      ((P * X + S * Y) ^ 2 + (S * X + Q * Y) ^ 2 + D * D * W) ^ 2 =
    ((D - P) * (D - Q) - S * S) ^ 2 * (c * c) ^ 2 * (S * S) * (P * (Q + D) - S * S) ∧
    c * c * ((D - Q) * (P * (D - Q) + S * S) + 2 * (S * S) * D) = 1 := by
  subst hX hY hW
  refine ⟨?_, by linear_combination hN⟩
  have : ∀ F E : ℝ, F - E = F * (c * (D - Q) * (P * (c * (D - Q)) + S * (c * S)) + c * S * (S * (c * (D - Q)) + Q * (c * S)) +
      D * (c * S * (c * S))) - E := fun F E => by rw [hN, mul_one]
  rw [this]
  ring

theorem mono_norm_bound {P Q S D : ℝ} (hP : 16 / 25 ≤ P ∧ P ≤ 2) (hQ : 16 / 25 ≤ Q ∧ Q ≤ 17 / 10)
    (hD : 16 / 25 ≤ D ∧ D ≤ 8 / 5) (S2 : S * S ≤ 1 / 4) :
    (D - Q) * (P * (D - Q) + S * S) + 2 * (S * S) * D ≤ 6 := by
  have a1 : (D - Q) * (D - Q) ≤ 2 := by
    have h1 : D - Q ≤ 1 := by linarith [hD.2, hQ.1]
    have h2 : -(53 / 50) ≤ D - Q := by linarith [hD.1, hQ.2]
    nlinarith
  have a2 : (D - Q) * (D - Q) * P ≤ 2 * P := mul_le_mul_of_nonneg_right a1 (by linarith [hP.1])
  have a3 : (D - Q) * (S * S) ≤ 1 * (S * S) :=
    mul_le_mul_of_nonneg_right (by linarith [hD.2, hQ.1]) (mul_self_nonneg S)
  have a4 : S * S * D ≤ 1 / 4 * (8 / 5) := mul_le_mul S2 hD.2 (by linarith [hD.1]) (by norm_num)
  have e : (D - Q) * (P * (D - Q) + S * S) + 2 * (S * S) * D = (D - Q) * (D - Q) * P + (D - Q) * (S * S) + 2 * (S * S * D) := by
    ring
  rw [e]
  linarith [hP.2]

theorem mono_shear (h : Mono p q s d) {S : ℝ} (hS : S = s * (p + q)) : 1 / 5000 ≤ S * S ∧ S * S ≤ 1 / 4 := by
  obtain ⟨s1, s2⟩ := h.ss
  have h1 : 8 / 5 ≤ p + q := by linarith [h.p1, h.q1]
  have h2 : p + q ≤ 5 / 2 := by linarith [h.p2, h.q2]
  have b1 : 64 / 25 ≤ (p + q) * (p + q) := by nlinarith
  have b2 : (p + q) * (p + q) ≤ 25 / 4 := by nlinarith
  have e : S * S = s * s * ((p + q) * (p + q)) := by rw [hS]; ring
  rw [e]
  constructor
  · calc (1 : ℝ) / 5000 ≤ 1 / 10000 * (64 / 25) := by norm_num
      _ ≤ _ := mul_le_mul (by linarith) b1 (by norm_num) (mul_self_nonneg s)
  · calc s * s * ((p + q) * (p + q)) ≤ 1 / 25 * (25 / 4) := mul_le_mul (by linarith) b2 (by positivity) (by norm_num)
      _ = 1 / 4 := by norm_num

theorem mono_far_bound (h : Mono p q s d) (hr : 1 / 10 ^ 4 ≤ |(d - p) * (d - q) - s * s|) {P Q S D c : ℝ}
    (hP : P = p * p + s * s) (hQ : Q = q * q + s * s) (hS : S = s * (p + q)) (hD : D = d * d)
    (hc : c * c * ((D - Q) * (P * (D - Q) + S * S) + 2 * (S * S) * D) = 1) :
    1 / 10 ^ 14 ≤ ((D - P) * (D - Q) - S * S) ^ 2 * (c * c) ^ 2 * (S * S) * (P * (Q + D) - S * S) := by
  obtain ⟨s1, s2⟩ := h.ss
  obtain ⟨p1, p2⟩ := sq_between h.p1 h.p2
  obtain ⟨q1, q2⟩ := sq_between h.q1 h.q2
  obtain ⟨d1, d2⟩ := sq_between h.d1 h.d2
  obtain ⟨S1, S2⟩ := mono_shear h hS
  have hPd : 16 / 25 ≤ P ∧ P ≤ 2 := by constructor <;> linarith
  have hQd : 16 / 25 ≤ Q ∧ Q ≤ 17 / 10 := by constructor <;> linarith
  have hDd : 16 / 25 ≤ D ∧ D ≤ 8 / 5 := by constructor <;> linarith
  have K : 1 / 10 ^ 8 ≤ ((D - P) * (D - Q) - S * S) ^ 2 := by
    have e : (D - P) * (D - Q) - S * S = ((d - p) * (d - q) - s * s) * ((p + d) * (q + d) - s * s) := by
      rw [hP, hQ, hS, hD]; exact rep_sq p q s d
    have g : 1 ≤ (p + d) * (q + d) - s * s := by
      have g1 : 8 / 5 ≤ p + d := by linarith [h.p1, h.d1]
      have g2 : 8 / 5 ≤ q + d := by linarith [h.q1, h.d1]
      nlinarith
    have g' : 1 / 10 ^ 4 ≤ |(D - P) * (D - Q) - S * S| := by
      rw [e, abs_mul, abs_of_pos (by linarith : 0 < (p + d) * (q + d) - s * s)]
      calc (1 : ℝ) / 10 ^ 4 = 1 / 10 ^ 4 * 1 := by ring
        _ ≤ _ := mul_le_mul hr g (by norm_num) (abs_nonneg _)
    rw [← sq_abs]
    calc (1 : ℝ) / 10 ^ 8 = (1 / 10 ^ 4) ^ 2 := by norm_num
      _ ≤ _ := pow_le_pow_left₀ (by norm_num) g' 2
  have N := mono_norm_bound hPd hQd hDd S2
  have hcc : 1 / 6 ≤ c * c := by
    have h0 := mul_le_mul_of_nonneg_left N (mul_self_nonneg c)
    rw [hc] at h0
    linarith
  have C : 1 / 36 ≤ (c * c) ^ 2 := by
    calc (1 : ℝ) / 36 = (1 / 6) ^ 2 := by norm_num
      _ ≤ _ := pow_le_pow_left₀ (by norm_num) hcc 2
  have B : 1 / 2 ≤ P * (Q + D) - S * S := by
    have : 16 / 25 * (32 / 25) ≤ P * (Q + D) := mul_le_mul hPd.1 (by linarith [hQd.1, hDd.1]) (by norm_num) (by linarith [hPd.1])
    linarith
  calc (1 : ℝ) / 10 ^ 14 ≤ 1 / 10 ^ 8 * (1 / 36) * (1 / 5000) * (1 / 2) := by norm_num
    _ ≤ _ := by
      refine mul_le_mul (mul_le_mul (mul_le_mul K C (by norm_num) (by positivity)) S1 (by norm_num) (by positivity)) B
        (by norm_num) (by positivity)

theorem mono_twin_far (h : Mono p q s d) (ha : Axes i j k) (hr : 1 / 10 ^ 4 ≤ |(d - p) * (d - q) - s * s|)
    (hy : y = s ∨ y = -s) (x : V3)
    (hx : (mm i k p q y d * mm i k p q y d) *ᵥ x = (mm i j p q s d * mm i j p q s d) *ᵥ x)
    (hu : (mm i j p q s d *ᵥ x) ⬝ᵥ (mm i j p q s d *ᵥ x) = 1) :
    1 / 10 ^ 14 ≤ ((mm i j p q s d * mm i j p q s d) *ᵥ x) ⬝ᵥ ((mm i j p q s d * mm i j p q s d) *ᵥ
        ((mm i j p q s d * mm i j p q s d) *ᵥ x)) -
      (((mm i j p q s d * mm i j p q s d) *ᵥ x) ⬝ᵥ ((mm i j p q s d * mm i j p q s d) *ᵥ x)) ^ 2 := by
  have hu' : x ⬝ᵥ (mm i j p q s d * mm i j p q s d) *ᵥ x = 1 := by
    rw [← mulVec_mulVec, sym_dot (mm_transpose ha.ij p q s d)]; exact hu
  have hb : Axes i k j := ⟨ha.ik, ha.ij, ha.jk.symm⟩
  rw [mm_sq ha.ij, mm_sq ha.ik] at hx
  rw [mm_sq ha.ij] at hu' ⊢
  have hyy : y * y = s * s := by rcases hy with rfl | rfl <;> ring
  rw [hyy] at hx
  obtain ⟨P, hP⟩ : ∃ P, P = p * p + s * s := ⟨_, rfl⟩
  obtain ⟨Q, hQ⟩ : ∃ Q, Q = q * q + s * s := ⟨_, rfl⟩
  obtain ⟨S, hS⟩ : ∃ S, S = s * (p + q) := ⟨_, rfl⟩
  obtain ⟨D, hD⟩ : ∃ D, D = d * d := ⟨_, rfl⟩
  have hT : y * (p + q) = S ∨ y * (p + q) = -S := by
    rcases hy with rfl | rfl
    · exact .inl hS.symm
    · exact .inr (by rw [hS]; ring)
  have hS0 : S ≠ 0 := by
    rw [hS]
    have := h.s1
    refine mul_ne_zero ?_ (by linarith [h.p1, h.q1])
    rintro rfl
    norm_num at this
  rw [← hP, ← hQ, ← hS, ← hD] at hx
  rw [← hP, ← hQ, ← hS, ← hD] at hu' ⊢
  have rows : ∀ v : V3, _ := fun v => mm_vec ha P Q S D v
  have rows' := mm_vec hb P Q (y * (p + q)) D x
  have r1 := congrFun hx i
  have r2 := congrFun hx j
  rw [rows'.1, (rows x).1] at r1
  rw [rows'.2.2, (rows x).2.1] at r2
  have hZ : x k * x k = x j * x j := by
    rcases hT with hT | hT <;> rw [hT] at r1
    · have : S * (x k - x j) = 0 := by linarith
      rw [sub_eq_zero.1 ((mul_eq_zero.1 this).resolve_left hS0)]
    · have : S * (x k + x j) = 0 := by linarith
      rw [eq_neg_of_add_eq_zero_left ((mul_eq_zero.1 this).resolve_left hS0)]; ring
  have hN : x i * (P * x i + S * x j) + x j * (S * x i + Q * x j) + D * (x k * x k) = 1 := by
    rw [dotProduct, ha.sum, (rows x).1, (rows x).2.1, (rows x).2.2] at hu'
    linarith
  have hY : x j = x j / S * S := by field_simp
  have hX : x i = x j / S * (D - Q) := by
    field_simp
    linarith
  obtain ⟨g1, g2⟩ := mono_far_scalar hX hY hZ hN
  have := mono_far_bound h hr hP hQ hS hD g2
  rw [← g1] at this
  refine this.trans (le_of_eq ?_)
  rw [dotProduct, dotProduct, ha.sum, ha.sum, (rows (_ *ᵥ x)).1, (rows (_ *ᵥ x)).2.1, (rows (_ *ᵥ x)).2.2, (rows x).1, (rows x).2.1,
    (rows x).2.2]
  ring

/-- the pairs related by a half turn about a face diagonal -/
theorem mono_half (eig : Mat3 → EigRes) (heig : ∀ A, Aᵀ = A → EigOK (eig A).vals (eig A).vecs A)
    (ht : t = .code ∨ t = .exact) (rnd : ℝ → ℝ) (h : Mono p q s d) (ha : Axes i j k)
    (hr : 1 / 10 ^ 4 ≤ |(d - p) * (d - q) - s * s|) {e : ℝ} (he : e = 1 ∨ e = -1) (hy : y = -e * s) (skip : Bool) :
    ∃ P, TwinPair.new eig (mm i j p q s d) (mm i k p q y d) skip = .ok P ∧
      TypeTwins eig t rnd P (mm i j p q s d) (mm i k p q y d) (diagonalNormal j k e) := by
  have hys : y = s ∨ y = -s := by
    rcases he with rfl | rfl
    · right; linarith
    · left; linarith
  have hab : |y| = |s| := abs_eq_abs.2 hys
  obtain ⟨vs, h1, -, -, -, h5⟩ := mm_variants ht h ha.ij
  exact type_twins eig heig t rnd (h.spd ha.ij) ((h.turn hab).spd ha.ik) (mono_face_axis ha he hy)
    (mm_apart h ha.ij ha.ik hab (fun hc => ha.jk hc.2.1)) (mono_twin_far h ha hr hys) h1 ((h5 _).2 ⟨i, k, y, ha.ik, hys, rfl⟩) skip

/-- **C105**, two variants whose axes differ by the exchange of one of them with the third one: they are twinnable and
not compound, unless the stretch along the third axis is nearly a repeated one.  The twin of type I has the face
diagonal plane between the exchanged axes. -/
theorem C105_half_turn (eig : Mat3 → EigRes) (heig : ∀ A, Aᵀ = A → EigOK (eig A).vals (eig A).vecs A)
    (ht : t = .code ∨ t = .exact) (rnd : ℝ → ℝ) (h : ClearlyMonoclinic p q r d)
    (hr : 1 / 10 ^ 4 ≤ |repeatedStretch p q r d|) (hij : i ≠ j) (hik : i ≠ k) (hjk : j ≠ k)
    {σ σ' : ℝ} (hσ : σ = 1 ∨ σ = -1) (hσ' : σ' = 1 ∨ σ' = -1) (skip : Bool) :
    (∃ P, TwinPair.new eig (monoStretch p q r d i j σ) (monoStretch p q r d i k σ') skip = .ok P ∧
      TypeTwins eig t rnd P (monoStretch p q r d i j σ) (monoStretch p q r d i k σ') (diagonalNormal j k (-(σ * σ')))) ∧
    ∃ P, TwinPair.new eig (monoStretch p q r d i j σ) (monoStretch p q r d k j σ') skip = .ok P ∧
      TypeTwins eig t rnd P (monoStretch p q r d i j σ) (monoStretch p q r d k j σ') (diagonalNormal i k (-(σ * σ'))) := by
  have hss : σ * σ = 1 := by rcases hσ with rfl | rfl <;> norm_num
  have hr' : 1 / 10 ^ 4 ≤ |(d - p) * (d - q) - σ * r * (σ * r)| := by
    rw [show (d - p) * (d - q) - σ * r * (σ * r) = repeatedStretch p q r d by
      unfold repeatedStretch; linear_combination (-(r * r)) * hss]
    exact hr
  have he : -(σ * σ') = 1 ∨ -(σ * σ') = -1 := by
    rcases hσ with rfl | rfl <;> rcases hσ' with rfl | rfl <;> norm_num
  have hy : σ' * r = - -(σ * σ') * (σ * r) := by linear_combination (-(σ' * r)) * hss
  have hm := clearly_mono h hσ
  refine ⟨mono_half eig heig ht rnd hm ⟨hij, hik, hjk⟩ hr' he hy skip, ?_⟩
  rw [mono_mm, mono_mm, mm_comm hij, mm_comm hjk.symm]
  exact mono_half eig heig ht rnd hm.swap ⟨hij.symm, hjk, hik⟩ (by rw [mul_comm (d - q)]; exact hr') he hy skip

/-- **C105**, two variants with the same third axis: they are twinnable and compound. -/
theorem C105_same_axis (eig : Mat3 → EigRes) (heig : ∀ A, Aᵀ = A → EigOK (eig A).vals (eig A).vecs A)
    (ht : t = .code ∨ t = .exact) (rnd : ℝ → ℝ) (h : ClearlyMonoclinic p q r d) (hij : i ≠ j)
    {σ σ' : ℝ} (hσ : σ = 1 ∨ σ = -1) (hσ' : σ' = 1 ∨ σ' = -1) (skip : Bool) :
    (∃ P, TwinPair.new eig (monoStretch p q r d i j σ) (monoStretch p q r d i j (-σ)) skip = .ok P ∧
      CompoundTwins eig t rnd P (monoStretch p q r d i j σ) (monoStretch p q r d i j (-σ))) ∧
    ∃ P, TwinPair.new eig (monoStretch p q r d i j σ) (monoStretch p q r d j i σ') skip = .ok P ∧
      CompoundTwins eig t rnd P (monoStretch p q r d i j σ) (monoStretch p q r d j i σ') := by
  obtain ⟨k, ha⟩ := axes_exist hij
  have hm := clearly_mono h hσ
  have hd : 0 < d := by linarith [hm.d1]
  obtain ⟨vs, h1, -, -, -, h5⟩ := mm_variants ht hm hij
  have hu : (Pi.single k 1 : V3) ≠ 0 := by
    intro h0
    have := congrFun h0 k
    simp at this
  have own : ∀ {i j : Fin 3}, Axes i j k → ∀ p q s, mm i j p q s d *ᵥ Pi.single k 1 = d • Pi.single k 1 := by
    intro i j ha p q s
    obtain ⟨r1, r2, r3⟩ := mm_vec ha p q s d (Pi.single k 1)
    funext l
    rcases ha.all l with rfl | rfl | rfl
    · rw [r1]; simp [ha.ik, ha.jk]
    · rw [r2]; simp [ha.ik, ha.jk]
    · rw [r3]; simp
  have core : ∀ i' j' y, Axes i' j' k → (y = σ * r ∨ y = -(σ * r)) → ¬ (i = i' ∧ j = j' ∧ σ * r = y) →
      ∃ P, TwinPair.new eig (mm i j p q (σ * r) d) (mm i' j' p q y d) skip = .ok P ∧
        CompoundTwins eig t rnd P (mm i j p q (σ * r) d) (mm i' j' p q y d) := by
    intro i' j' y ha' hy hne
    have hab : |y| = |σ * r| := abs_eq_abs.2 hy
    exact compound_twins eig heig t rnd (hm.spd hij) ((hm.turn hab).spd ha'.ij) (mm_related hij ha'.ij hy)
      (mm_apart hm hij ha'.ij hab hne) hu hd.ne' (own ha _ _ _) (own ha' _ _ _) h1 ((h5 _).2 ⟨i', j', y, ha'.ij, hy, rfl⟩) skip
  have hs0 : σ * r ≠ 0 := by
    intro h0
    have := hm.s1
    rw [h0] at this
    norm_num at this
  refine ⟨core i j (-σ * r) ha (.inr (by ring)) ?_, core j i (σ' * r) ha.swap ?_ (fun hc => hij hc.1)⟩
  · rintro ⟨-, -, hc⟩
    exact hs0 (by linarith)
  · rcases hσ with rfl | rfl <;> rcases hσ' with rfl | rfl
    · exact .inl rfl
    · exact .inr (by ring)
    · exact .inr (by ring)
    · exact .inl rfl

/-! ### the pairs without a two-fold axis -/

theorem mm_det (h : Axes i j k) (p q s d : ℝ) : (mm i j p q s d).det = d * (p * q - s * s) := by
  obtain ⟨h1, h2, h3⟩ := h
  fin_cases i <;> fin_cases j <;> fin_cases k <;> simp at h1 h2 h3 <;> simp [mm, det_fin_three] <;> ring

theorem three_det (h : Axes i j k) {P Q S D T : ℝ} (hT : T * T = S * S) :
    (mm j k P Q T D - mm i j P Q S D).det = -((P - Q) * ((D - P) * (D - Q) - S * S)) := by
  obtain ⟨h1, h2, h3⟩ := h
  have hT' : T ^ 2 = S ^ 2 := by rw [pow_two, pow_two, hT]
  fin_cases i <;> fin_cases j <;> fin_cases k <;> simp at h1 h2 h3 <;> simp [mm, det_fin_three] <;> ring_nf <;> rw [hT'] <;> ring

theorem three_sq (h : Axes i j k) (hy : y = s ∨ y = -s) :
    (mm j k p q y d * mm j k p q y d - mm i j p q s d * mm i j p q s d).det =
      -((p - q) * (p + q) * (((d - p) * (d - q) - s * s) * ((p + d) * (q + d) - s * s))) := by
  have hyy : y * y = s * s := by rcases hy with rfl | rfl <;> ring
  have hT : y * (p + q) * (y * (p + q)) = s * (p + q) * (s * (p + q)) := by
    linear_combination ((p + q) * (p + q)) * hyy
  rw [mm_sq h.ij, mm_sq h.jk, hyy, three_det h hT, rep_sq]
  ring

/-- **C105**, two variants whose axes differ by a rotation of all three: they are rank-one connected only if the stretch
along the third axis is a repeated one. -/
theorem C105_threefold (h : ClearlyMonoclinic p q r d) (hij : i ≠ j) (hik : i ≠ k) (hjk : j ≠ k)
    {σ σ' : ℝ} (hσ : σ = 1 ∨ σ = -1) (hσ' : σ' = 1 ∨ σ' = -1) :
    (RankOneConnected (monoStretch p q r d i j σ) (monoStretch p q r d j k σ') ↔ repeatedStretch p q r d = 0) ∧
    (RankOneConnected (monoStretch p q r d i j σ) (monoStretch p q r d k i σ') ↔ repeatedStretch p q r d = 0) := by
  have core : ∀ {i j k : Fin 3}, Axes i j k → ∀ {σ σ' : ℝ}, (σ = 1 ∨ σ = -1) → (σ' = 1 ∨ σ' = -1) →
      (RankOneConnected (mm i j p q (σ * r) d) (mm j k p q (σ' * r) d) ↔ repeatedStretch p q r d = 0) := by
    intro i j k ha σ σ' hσ hσ'
    have hss : σ * r * (σ * r) = r ^ 2 := by rcases hσ with rfl | rfl <;> ring
    have hss' : σ' * r * (σ' * r) = r ^ 2 := by rcases hσ' with rfl | rfl <;> ring
    have hy : σ' * r = σ * r ∨ σ' * r = -(σ * r) := by
      rcases hσ with rfl | rfl <;> rcases hσ' with rfl | rfl <;> simp
    have hm := clearly_mono h hσ
    have hab : |σ' * r| = |σ * r| := abs_eq_abs.2 hy
    rw [connected_iff_det (hm.spd ha.ij) ((hm.turn hab).spd ha.jk)
      (by rw [mm_det ha, mm_det ⟨ha.jk, ha.ij.symm, ha.ik.symm⟩, hss, hss']), three_sq ha hy, hss, repeatedStretch]
    have n1 : p - q ≠ 0 := by
      intro h0
      have := hm.pq
      rw [h0] at this
      norm_num at this
    have n2 : p + q ≠ 0 := by linarith [hm.p1, hm.q1]
    have n3 : (p + d) * (q + d) - r ^ 2 ≠ 0 := by
      have g1 : 8 / 5 ≤ p + d := by linarith [hm.p1, hm.d1]
      have g2 : 8 / 5 ≤ q + d := by linarith [hm.q1, hm.d1]
      have := hm.ss.2
      rw [hss] at this
      nlinarith
    constructor
    · intro h0
      rcases mul_eq_zero.1 (neg_eq_zero.1 h0) with h1 | h1
      · exact absurd h1 (mul_ne_zero n1 n2)
      · exact (mul_eq_zero.1 h1).resolve_right n3
    · intro h0; rw [h0]; ring
  refine ⟨core ⟨hij, hik, hjk⟩ hσ hσ', ?_⟩
  rw [C54_symmetric]
  exact core ⟨hik.symm, hjk.symm, hij⟩ hσ' hσ

theorem shear_bounds {p q a : ℝ} (p1 : 9 / 10 ≤ p) (p2 : p ≤ 11 / 10) (q1 : 9 / 10 ≤ q) (q2 : q ≤ 11 / 10) (a1 : 0 ≤ a)
    (a2 : a ≤ 1 / 20) : 7125 / 10000 ≤ p * p + a * a - a * (p + q) ∧ p * p + a * a + a * (p + q) ≤ 13225 / 10000 := by
  constructor
  · have h1 : a * q ≤ a * (11 / 10) := mul_le_mul_of_nonneg_left q2 a1
    nlinarith
  · have h1 : a * (p + q) ≤ 1 / 20 * (11 / 5) := mul_le_mul a2 (by linarith) (by linarith) (by norm_num)
    nlinarith

theorem stretch_bounds {p q s d : ℝ} (ha : Axes i j k) (hp : |p - 1| ≤ 1 / 10) (hq : |q - 1| ≤ 1 / 10)
    (hd : |d - 1| ≤ 1 / 10) (hs : |s| ≤ 1 / 20) (z : V3) :
    7125 / 10000 * (z ⬝ᵥ z) ≤ (mm i j p q s d *ᵥ z) ⬝ᵥ (mm i j p q s d *ᵥ z) ∧
    (mm i j p q s d *ᵥ z) ⬝ᵥ (mm i j p q s d *ᵥ z) ≤ 13225 / 10000 * (z ⬝ᵥ z) := by
  obtain ⟨p1, p2⟩ := abs_le.1 hp
  obtain ⟨q1, q2⟩ := abs_le.1 hq
  obtain ⟨d1, d2⟩ := abs_le.1 hd
  obtain ⟨r1, r2, r3⟩ := mm_vec ha p q s d z
  rw [dotProduct, dotProduct, ha.sum, ha.sum, r1, r2, r3]
  set X := z i
  set Y := z j
  set Z := z k
  have e : (p * X + s * Y) * (p * X + s * Y) + (s * X + q * Y) * (s * X + q * Y) + d * Z * (d * Z) =
      (p * p + s * s) * (X * X) + (q * q + s * s) * (Y * Y) + 2 * (s * (p + q)) * (X * Y) + d * d * (Z * Z) := by ring
  rw [e]
  have hss : |s| * |s| = s * s := abs_mul_abs_self s
  obtain ⟨a1, a2⟩ := shear_bounds (p := p) (q := q) (by linarith) (by linarith) (by linarith) (by linarith) (abs_nonneg s) hs
  obtain ⟨b1, b2⟩ := shear_bounds (p := q) (q := p) (by linarith) (by linarith) (by linarith) (by linarith) (abs_nonneg s) hs
  rw [hss] at a1 a2 b1 b2
  have c1 : 7125 / 10000 ≤ d * d := by nlinarith
  have c2 : d * d ≤ 13225 / 10000 := by nlinarith
  have hx : |2 * (s * (p + q)) * (X * Y)| ≤ |s| * (p + q) * (X * X + Y * Y) := by
    have h1 : |2 * (X * Y)| ≤ X * X + Y * Y := by
      rw [abs_le]
      constructor <;> nlinarith [mul_self_nonneg (X + Y), mul_self_nonneg (X - Y)]
    have h2 : |2 * (s * (p + q)) * (X * Y)| = |s| * (p + q) * |2 * (X * Y)| := by
      rw [show 2 * (s * (p + q)) * (X * Y) = s * (p + q) * (2 * (X * Y)) by ring, abs_mul, abs_mul,
        abs_of_pos (by linarith : 0 < p + q)]
    rw [h2]
    exact mul_le_mul_of_nonneg_left h1 (mul_nonneg (abs_nonneg s) (by linarith))
  obtain ⟨x1, x2⟩ := abs_le.1 hx
  have m1 := mul_le_mul_of_nonneg_right a1 (mul_self_nonneg X)
  have m2 := mul_le_mul_of_nonneg_right a2 (mul_self_nonneg X)
  have m3 := mul_le_mul_of_nonneg_right b1 (mul_self_nonneg Y)
  have m4 := mul_le_mul_of_nonneg_right b2 (mul_self_nonneg Y)
  have m5 := mul_le_mul_of_nonneg_right c1 (mul_self_nonneg Z)
  have m6 := mul_le_mul_of_nonneg_right c2 (mul_self_nonneg Z)
  constructor
  · linear_combination m1 + m3 + m5 + x1
  · linear_combination m2 + m4 + m6 + x2

theorem mid_far {l0 l1 l2 w D : ℝ} (h0 : 5387 / 10000 ≤ l0) (h0' : l0 ≤ l1) (h2' : l1 ≤ l2) (h2 : l2 ≤ 18562 / 10000)
    (hprod : l0 * l1 * l2 = 1) (hD : 0 < D) (hD' : D ≤ 17716 / 10000) (hw : 58 / 10 * (7 / 10000) ≤ |w|)
    (h : (l0 - 1) * (l1 - 1) * (l2 - 1) * D = w) : ¬ |l1 - 1| < 5 / 10 ^ 3 := by
  intro hl
  have a0 : l0 ≤ 1 := by
    by_contra hc
    push Not at hc
    have : 1 < l0 * l1 := by nlinarith
    nlinarith
  have a2 : 1 ≤ l2 := by
    by_contra hc
    push Not at hc
    have : l0 * l1 < 1 := by nlinarith
    nlinarith
  have e : |w| = (1 - l0) * (l2 - 1) * (|l1 - 1| * D) := by
    rw [← h, abs_mul, abs_mul, abs_mul, abs_of_pos hD, abs_of_nonneg (by linarith : 0 ≤ l2 - 1),
      abs_of_nonpos (by linarith : l0 - 1 ≤ 0)]
    ring
  have m1 : (1 - l0) * (l2 - 1) ≤ 4613 / 10000 * (8562 / 10000) :=
    mul_le_mul (by linarith) (by linarith) (by linarith) (by norm_num)
  have m2 : |l1 - 1| * D ≤ 5 / 10 ^ 3 * (17716 / 10000) := mul_le_mul hl.le hD' hD.le (by norm_num)
  have m3 : |w| ≤ 4613 / 10000 * (8562 / 10000) * (5 / 10 ^ 3 * (17716 / 10000)) := by
    rw [e]
    exact mul_le_mul m1 m2 (mul_nonneg (abs_nonneg _) hD.le) (by norm_num)
  norm_num at m3 hw
  linarith

/-- a pair of stretches that are not too large, with squares that differ clearly in every direction -/
theorem not_twinnable (eig : Mat3 → EigRes) (heig : ∀ A, Aᵀ = A → EigOK (eig A).vals (eig A).vecs A) {U V : Mat3}
    (hU : IsSPD U) (hV : IsSPD V) (hdet : U.det = V.det) (hdet' : U.det * U.det ≤ 17716 / 10000)
    (bU : ∀ z : V3, 7125 / 10000 * (z ⬝ᵥ z) ≤ (U *ᵥ z) ⬝ᵥ (U *ᵥ z) ∧ (U *ᵥ z) ⬝ᵥ (U *ᵥ z) ≤ 13225 / 10000 * (z ⬝ᵥ z))
    (bV : ∀ z : V3, 7125 / 10000 * (z ⬝ᵥ z) ≤ (V *ᵥ z) ⬝ᵥ (V *ᵥ z) ∧ (V *ᵥ z) ⬝ᵥ (V *ᵥ z) ≤ 13225 / 10000 * (z ⬝ᵥ z))
    (hw : 58 / 10 * (7 / 10000) ≤ |(V * V - U * U).det|) (skip : Bool) :
    ∃ P, TwinPair.new eig U V skip = .ok P ∧ P.isTwinnable = false := by
  refine ⟨_, new_ok eig hU hV skip, ?_⟩
  obtain ⟨he, hm⟩ := sortEig_spec (heig _ (relMetric_symm hU.1 hV.1))
  rw [Bool.eq_false_iff]
  intro hc
  obtain ⟨-, hl⟩ := (isTwinnable_iff _).1 hc
  have hl : |(sortEig eig (relMetric U V)).vals 1 - 1| < 5 / 10 ^ 3 := hl
  set e := sortEig eig (relMetric U V)
  have hUd := spd_det_pos hU
  have h1 := relMetric_det_sub (V := V) hUd.ne'
  rw [eigenvalues_sub he.eigenvalues] at h1
  have h2 : e.vals 0 * e.vals 1 * e.vals 2 = 1 := by
    rw [← det_three he.eigenvalues, relMetric, det_mul, det_mul, det_mul, det_nonsing_inv, Ring.inverse_eq_inv', ← hdet]
    field_simp
  have h01 : e.vals 0 ≤ e.vals 1 := hm (by decide)
  have h12 : e.vals 1 ≤ e.vals 2 := hm (by decide)
  have low : ∀ l, 5387 / 10000 ≤ e.vals l ∧ e.vals l ≤ 18562 / 10000 := by
    intro l
    obtain ⟨z, hz1, hz⟩ := eig_value hU hV (he.unit l) (he.eigenvector l)
    obtain ⟨u1, u2⟩ := bU z
    obtain ⟨v1, v2⟩ := bV z
    rw [hz1] at u1 u2
    rw [← hz] at v1 v2
    constructor <;> linarith
  exact mid_far (low 0).1 h01 h12 (low 2).2 h2 (mul_pos hUd hUd) hdet' hw h1 hl

/-- **C105**, such a pair is not twinnable unless the stretch along the third axis is nearly a repeated one. -/
theorem C105_not_twinnable (eig : Mat3 → EigRes) (heig : ∀ A, Aᵀ = A → EigOK (eig A).vals (eig A).vecs A)
    (h : ClearlyMonoclinic p q r d) (hp : |p - 1| ≤ 1 / 10) (hq : |q - 1| ≤ 1 / 10) (hd : |d - 1| ≤ 1 / 10)
    (hr : |r| ≤ 1 / 20) (hrep : 7 / 10000 ≤ |(p - q) * repeatedStretch p q r d|)
    (hij : i ≠ j) (hik : i ≠ k) (hjk : j ≠ k) {σ σ' : ℝ} (hσ : σ = 1 ∨ σ = -1) (hσ' : σ' = 1 ∨ σ' = -1) (skip : Bool) :
    (∃ P, TwinPair.new eig (monoStretch p q r d i j σ) (monoStretch p q r d j k σ') skip = .ok P ∧ P.isTwinnable = false) ∧
    ∃ P, TwinPair.new eig (monoStretch p q r d i j σ) (monoStretch p q r d k i σ') skip = .ok P ∧ P.isTwinnable = false := by
  obtain ⟨p1, p2⟩ := abs_le.1 hp
  obtain ⟨q1, q2⟩ := abs_le.1 hq
  obtain ⟨d1, d2⟩ := abs_le.1 hd
  have hr2 : r ^ 2 ≤ 1 / 400 := by
    have := mul_le_mul hr hr (abs_nonneg r) (by norm_num)
    rw [abs_mul_abs_self] at this
    linarith
  have sq1 : ∀ {σ : ℝ}, (σ = 1 ∨ σ = -1) → σ * r * (σ * r) = r ^ 2 := by rintro σ (rfl | rfl) <;> ring
  have ab1 : ∀ {σ : ℝ}, (σ = 1 ∨ σ = -1) → |σ * r| ≤ 1 / 20 := by
    rintro σ (rfl | rfl) <;> simpa using hr
  have det1 : ∀ {i j k : Fin 3} {σ : ℝ}, Axes i j k → (σ = 1 ∨ σ = -1) → (mm i j p q (σ * r) d).det = d * (p * q - r ^ 2) := by
    intro i j k σ ha hσ
    rw [mm_det ha, sq1 hσ]
  have det2 : d * (p * q - r ^ 2) * (d * (p * q - r ^ 2)) ≤ 17716 / 10000 := by
    have g1 : 0 ≤ p * q - r ^ 2 := by nlinarith
    have g2 : p * q - r ^ 2 ≤ 121 / 100 := by nlinarith [sq_nonneg r]
    have g3 : d * (p * q - r ^ 2) ≤ 11 / 10 * (121 / 100) := mul_le_mul (by linarith) g2 g1 (by norm_num)
    have g4 : 0 ≤ d * (p * q - r ^ 2) := mul_nonneg (by linarith) g1
    calc _ ≤ 11 / 10 * (121 / 100) * (11 / 10 * (121 / 100)) := mul_le_mul g3 g3 g4 (by norm_num)
      _ ≤ _ := by norm_num
  have big : ∀ {i j k : Fin 3} {σ σ' : ℝ}, Axes i j k → (σ = 1 ∨ σ = -1) → (σ' = 1 ∨ σ' = -1) →
      58 / 10 * (7 / 10000) ≤ |(mm j k p q (σ' * r) d * mm j k p q (σ' * r) d - mm i j p q (σ * r) d * mm i j p q (σ * r) d).det| := by
    intro i j k σ σ' ha hσ hσ'
    have hy : σ' * r = σ * r ∨ σ' * r = -(σ * r) := by
      rcases hσ with rfl | rfl <;> rcases hσ' with rfl | rfl <;> simp
    have g : 58 / 10 ≤ (p + q) * ((p + d) * (q + d) - r ^ 2) := by
      have g1 : 9 / 5 * (9 / 5) ≤ (p + d) * (q + d) := mul_le_mul (by linarith) (by linarith) (by norm_num) (by linarith)
      have g2 : 9 / 5 * (9 / 5 * (9 / 5) - 1 / 400) ≤ (p + q) * ((p + d) * (q + d) - r ^ 2) :=
        mul_le_mul (by linarith) (by linarith) (by norm_num) (by linarith)
      norm_num at g2 ⊢
      linarith
    rw [three_sq ha hy, sq1 hσ, abs_neg, show (p - q) * (p + q) * (((d - p) * (d - q) - r ^ 2) * ((p + d) * (q + d) - r ^ 2)) =
      (p + q) * ((p + d) * (q + d) - r ^ 2) * ((p - q) * repeatedStretch p q r d) by unfold repeatedStretch; ring, abs_mul,
      abs_of_pos (by linarith : 0 < (p + q) * ((p + d) * (q + d) - r ^ 2))]
    exact mul_le_mul g hrep (by norm_num) (by linarith)
  have a1 : Axes i j k := ⟨hij, hik, hjk⟩
  have a2 : Axes j k i := ⟨hjk, hij.symm, hik.symm⟩
  have a3 : Axes k i j := ⟨hik.symm, hjk.symm, hij⟩
  have bd : ∀ {i j k : Fin 3} {σ : ℝ}, Axes i j k → (σ = 1 ∨ σ = -1) → ∀ z : V3, _ :=
    fun ha hσ z => stretch_bounds ha hp hq hd (ab1 hσ) z
  have sp : ∀ {i j k : Fin 3} {σ : ℝ}, Axes i j k → (σ = 1 ∨ σ = -1) → IsSPD (mm i j p q (σ * r) d) :=
    fun ha hσ => (clearly_mono h hσ).spd ha.ij
  have dd := det1 a1 hσ
  constructor
  · exact not_twinnable eig heig (sp a1 hσ) (sp a2 hσ') (by rw [dd, det1 a2 hσ']) (by rw [dd]; exact det2) (bd a1 hσ)
      (bd a2 hσ') (big a1 hσ hσ') skip
  · refine not_twinnable eig heig (sp a1 hσ) (sp a3 hσ') (by rw [dd, det1 a3 hσ']) (by rw [dd]; exact det2) (bd a1 hσ)
      (bd a3 hσ') ?_ skip
    have := big a3 hσ' hσ
    rw [← neg_sub, det_neg, abs_mul]
    simpa using this

/-- The stretch of a Cu-Zn-Al alloy meets the hypotheses of all four theorems. -/
example : ClearlyMonoclinic (1.087 : ℝ) 1.010 0.025 0.9093 ∧ 1 / 10 ^ 4 ≤ |repeatedStretch (1.087 : ℝ) 1.010 0.025 0.9093| ∧
    |(1.087 : ℝ) - 1| ≤ 1 / 10 ∧ |(1.010 : ℝ) - 1| ≤ 1 / 10 ∧ |(0.9093 : ℝ) - 1| ≤ 1 / 10 ∧ |(0.025 : ℝ)| ≤ 1 / 20 ∧
    7 / 10000 ≤ |((1.087 : ℝ) - 1.010) * repeatedStretch (1.087 : ℝ) 1.010 0.025 0.9093| := by
  refine ⟨?_, ?_, ?_, ?_, ?_, ?_, ?_⟩ <;> norm_num [ClearlyMonoclinic, repeatedStretch, abs_of_pos, abs_le]

/-- A repeated principal stretch: two variants without a common two-fold axis are then rank-one connected. -/
example : ClearlyMonoclinic (1.1 : ℝ) 1 0.1 ((2.1 - √0.05) / 2) ∧ repeatedStretch (1.1 : ℝ) 1 0.1 ((2.1 - √0.05) / 2) = 0 := by
  have h : √(0.05 : ℝ) * √0.05 = 0.05 := Real.mul_self_sqrt (by norm_num)
  have h0 : 0 ≤ √(0.05 : ℝ) := Real.sqrt_nonneg _
  have h1 : √(0.05 : ℝ) ≤ 0.3 := by nlinarith
  refine ⟨⟨by norm_num, by norm_num, ⟨by linarith, by linarith⟩, ?_, ?_, ?_⟩, ?_⟩
  · norm_num [abs_of_pos]
  · norm_num [abs_of_pos]
  · norm_num [abs_of_pos]
  · unfold repeatedStretch
    linear_combination (1 / 4) * h

end Verif.Props
