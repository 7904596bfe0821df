import Verif.Lemmas.LLL
import Verif.Props.Twin

/-!
# C55, C69: twin axes and the twinning equation
-/

namespace Verif.Props

open Matrix Verif.Model Verif.Spec Verif.Lemmas

local notation "Mat3" => Matrix (Fin 3) (Fin 3) ℝ

theorem related_facts {U V : Mat3} (h : Related U V) : U.det = V.det ∧ (U * U).trace = (V * V).trace ∧
    (U * U * (U * U)).trace = (V * V * (V * V)).trace := by
  obtain ⟨G, hG, rfl⟩ := h
  have hGt : Gᵀ * G = 1 := mul_eq_one_comm.1 hG.1
  have hsq : G * U * Gᵀ * (G * U * Gᵀ) = G * (U * U) * Gᵀ := by
    calc _ = G * U * (Gᵀ * G) * U * Gᵀ := by simp only [Matrix.mul_assoc]
      _ = _ := by rw [hGt, Matrix.mul_one]; simp only [Matrix.mul_assoc]
  have hsq4 : G * (U * U) * Gᵀ * (G * (U * U) * Gᵀ) = G * (U * U * (U * U)) * Gᵀ := by
    calc _ = G * (U * U) * (Gᵀ * G) * (U * U) * Gᵀ := by simp only [Matrix.mul_assoc]
      _ = _ := by rw [hGt, Matrix.mul_one]; simp only [Matrix.mul_assoc]
  have htr : ∀ X : Mat3, (G * X * Gᵀ).trace = X.trace := by
    intro X
    rw [trace_mul_comm, ← Matrix.mul_assoc, hGt, Matrix.one_mul]
  refine ⟨?_, ?_, ?_⟩
  · rw [det_mul, det_mul, det_transpose, hG.2, one_mul, mul_one]
  · rw [hsq, htr]
  · rw [hsq, hsq4, htr]

/-- What holds for a rank-one connected pair of distinct variants. -/
structure Setup (U V : Mat3) (e : EigRes) : Prop where
  spdU : IsSPD U
  spdV : IsSPD V
  frame : Frame U V e.vals (fun k => U *ᵥ e.vecs k)
  norm : (U *ᵥ e.vecs 0) ⬝ᵥ (U *ᵥ e.vecs 0) = e.vals 2 * ((U *ᵥ e.vecs 2) ⬝ᵥ (U *ᵥ e.vecs 2))
  orth : ((U *ᵥ e.vecs 1) ⬝ᵥ (U *ᵥ e.vecs 0)) ^ 2 = e.vals 2 * ((U *ᵥ e.vecs 1) ⬝ᵥ (U *ᵥ e.vecs 2)) ^ 2
  twinnable : (TwinPair.mk U V e).isTwinnable = true

theorem setup (eig : Mat3 → EigRes) (heig : ∀ A, Aᵀ = A → EigOK (eig A).vals (eig A).vecs A)
    {U V : Mat3} (hU : IsSPD U) (hV : IsSPD V) (hrel : Related U V)
    (hd : ∃ i j, 1 / 10 ^ 12 ≤ |U i j - V i j|) (hc : RankOneConnected U V) :
    Setup U V (sortEig eig (relMetric U V)) := by
  have hs := sortEig_spec (heig _ (relMetric_symm hU.1 hV.1))
  have hS : SortedEigenvalues (relMetric U V) (sortEig eig (relMetric U V)).vals := ⟨hs.2, hs.1.eigenvalues⟩
  obtain ⟨h1, h2, h3⟩ := related_facts hrel
  obtain ⟨p, hp, _, _, _, h4⟩ := C54_criterion eig heig U V hU hV true
  obtain ⟨p', hp', _, ht⟩ := C54_istwinnable_partial eig heig U V hU hV true _ hS
  rw [new_ok eig hU hV] at hp hp'
  cases hp
  cases hp'
  have hne : U ≠ V := by
    rintro rfl
    obtain ⟨i, j, h⟩ := hd
    rw [sub_self, abs_zero] at h
    norm_num at h
  have hpos : ∀ i, 0 < (sortEig eig (relMetric U V)).vals i := by
    have hS' := hS.2
    rw [relMetric_gram hU.1 hV.1] at hS' ⊢
    refine gram_eigen_pos ?_ hS'
    rw [det_mul, det_nonsing_inv, Ring.inverse_eq_inv']
    exact mul_ne_zero (spd_det_pos hV).ne' (inv_ne_zero (spd_det_pos hU).ne')
  have hF := frame_of hU hV hne h1 (spd_det_pos hU).ne' hs.1 hs.2 (h4.2 hc) hpos
  exact ⟨hU, hV, hF, frame_trace hF h2, frame_trace_four hF h2 h3, ht hc hd⟩

/-- The quantity tested in `ax()` for the sign `s`. -/
noncomputable def axTest (U : Mat3) (e : EigRes) (s : ℝ) : ℝ :=
  s * Real.sqrt (e.vals 2) * ((U *ᵥ e.vecs 1) ⬝ᵥ (U *ᵥ e.vecs 2)) + (U *ᵥ e.vecs 1) ⬝ᵥ (U *ᵥ e.vecs 0)

open Classical in
theorem axis_eval {U V : Mat3} {e : EigRes} (h : Setup U V e) {s : ℝ} (hs : s * s = 1) :
    ∃ (r : ℝ) (x : V3), 0 < r ∧ x ⬝ᵥ x = 1 ∧ axisVec e.vals (fun k => U *ᵥ e.vecs k) s = r • x ∧
    (TwinPair.mk U V e).axis s = .ok (if |axTest U e s| < small then [some x] else []) := by
  have hdot : ∀ x y : V3, x ⬝ᵥ (U * U) *ᵥ y = (U *ᵥ x) ⬝ᵥ (U *ᵥ y) := by
    intro x y
    rw [← mulVec_mulVec, sym_dot h.spdU.1]
  have hne := axisVec_ne h.frame s
  obtain ⟨x, hx⟩ : ∃ x, unitVec (axisVec e.vals (fun k => U *ᵥ e.vecs k) s) = some x := by
    cases hv : unitVec (axisVec e.vals (fun k => U *ᵥ e.vecs k) s) with
    | none => exact absurd ((unitVec_none _).1 hv) hne
    | some x => exact ⟨x, rfl⟩
  obtain ⟨x1, x2, x3⟩ := unitVec_some hx
  refine ⟨_, x, x2, x1, x3, ?_⟩
  have hn := axisVec_norm h.frame h.norm hs
  have hpos : 0 < 2 * ((U *ᵥ e.vecs 0) ⬝ᵥ (U *ᵥ e.vecs 0) +
      s * Real.sqrt (e.vals 2) * ((U *ᵥ e.vecs 2) ⬝ᵥ (U *ᵥ e.vecs 0))) := by
    rw [← hn]
    refine lt_of_le_of_ne (Finset.sum_nonneg fun i _ => mul_self_nonneg _) fun h0 => hne ?_
    exact dotProduct_self_eq_zero.1 h0.symm
  have hl2 : ¬ e.vals 2 < 0 := by have := h.frame.gt; linarith
  unfold TwinPair.axis
  simp only [hdot]
  rw [if_neg hl2]
  unfold axTest
  split_ifs with h1 h2
  · exact absurd hpos (not_lt.2 h2.le)
  · set d := Real.sqrt (2 * ((U *ᵥ e.vecs 0) ⬝ᵥ (U *ᵥ e.vecs 0) +
      s * Real.sqrt (e.vals 2) * ((U *ᵥ e.vecs 2) ⬝ᵥ (U *ᵥ e.vecs 0)))) with hd
    have hdp : 0 < d := Real.sqrt_pos.2 hpos
    have hv : d • U *ᵥ e.vecs 0 + (s * Real.sqrt (e.vals 2) * d) • U *ᵥ e.vecs 2 =
        (d * vnorm (axisVec e.vals (fun k => U *ᵥ e.vecs k) s)) • x := by
      rw [mul_smul d, ← x3, axisVec, smul_add, smul_smul, mul_comm d]
    rw [hv, unitVec_of_isDirection ⟨x1, _, mul_pos hdp x2, rfl⟩]
  · rfl

/-- No near misses: the tests of `ax()` against 1e-12 succeed only if the tested quantity vanishes. -/
def Clean (p : TwinPair) : Prop := ∀ s : ℝ, s = -1 ∨ s = 1 → |axTest p.Ui p.e s| < small → axTest p.Ui p.e s = 0

/-- For a vanishing test the axis is right. -/
theorem axis_right {U V : Mat3} {e : EigRes} (h : Setup U V e) {s : ℝ} (hs : s * s = 1) {r : ℝ} {x : V3}
    (hr : 0 < r) (hx : x ⬝ᵥ x = 1) (hp : axisVec e.vals (fun k => U *ᵥ e.vecs k) s = r • x)
    (ht : axTest U e s = 0) : IsTwinAxis U V x :=
  axis_works h.spdU h.spdV h.frame h.norm hs ht hr hx hp

theorem test_exists {U V : Mat3} {e : EigRes} (h : Setup U V e) : axTest U e (-1) = 0 ∨ axTest U e 1 = 0 := by
  have hq : Real.sqrt (e.vals 2) * Real.sqrt (e.vals 2) = e.vals 2 :=
    Real.mul_self_sqrt (by have := h.frame.gt; linarith)
  have : axTest U e (-1) * axTest U e 1 = 0 := by
    unfold axTest
    linear_combination h.orth - ((U *ᵥ e.vecs 1) ⬝ᵥ (U *ᵥ e.vecs 2)) ^ 2 * hq
  exact mul_eq_zero.1 this

theorem small_pos : (0 : ℝ) < small := by norm_num [small]

/-- **C69**, the axes: for every rank-one connected pair of distinct variants `ax()` succeeds and is not
empty; every axis of a half turn carrying `Ui` to `Uj` is listed up to sign; and if the tests against
1e-12 have no near misses, every listed vector is such an axis. -/
theorem C69_axes (eig : Mat3 → EigRes) (heig : ∀ A, Aᵀ = A → EigOK (eig A).vals (eig A).vecs A)
    (U V : Mat3) (hU : IsSPD U) (hV : IsSPD V) (hrel : Related U V)
    (hd : ∃ i j, 1 / 10 ^ 12 ≤ |U i j - V i j|) (hc : RankOneConnected U V) (skip : Bool) :
    ∃ p l, TwinPair.new eig U V skip = .ok p ∧ p.ax = .ok l ∧ l ≠ [] ∧
      (∀ e, IsTwinAxis U V e → some e ∈ l ∨ some (-e) ∈ l) ∧
      (Clean p → ∀ x ∈ l, ∃ e, x = some e ∧ IsTwinAxis U V e) := by
  classical
  have h := setup eig heig hU hV hrel hd hc
  set e := sortEig eig (relMetric U V) with he
  obtain ⟨r1, x1, hr1, hx1, hp1, ha1⟩ := axis_eval h (s := -1) (by norm_num)
  obtain ⟨r2, x2, hr2, hx2, hp2, ha2⟩ := axis_eval h (s := 1) (by norm_num)
  refine ⟨⟨U, V, e⟩, (if |axTest U e (-1)| < small then [some x1] else []) ++
    (if |axTest U e 1| < small then [some x2] else []), new_ok eig hU hV skip, ?_, ?_, ?_, ?_⟩
  · unfold TwinPair.ax
    rw [if_neg (by rw [h.twinnable]; simp), ha1, ha2]
  · rcases test_exists h with h0 | h0
    · rw [h0, abs_zero, if_pos small_pos]; simp
    · rw [h0, abs_zero, if_pos small_pos]; simp
  · intro a ha
    obtain ⟨s, hs, ht, hp⟩ := axis_complete h.frame ha
    have hsig : ∀ {r : ℝ} {x : V3}, 0 < r → x ⬝ᵥ x = 1 → r • x = (2 * (a ⬝ᵥ U *ᵥ e.vecs 0)) • a →
        a = x ∨ -a = x := by
      intro r x hr hx hxa
      set c := 2 * (a ⬝ᵥ U *ᵥ e.vecs 0)
      have hcc : r * r = c * c := by
        have := congrArg (fun y => y ⬝ᵥ y) hxa
        simpa [smul_dotProduct, dotProduct_smul, hx, ha.1] using this
      have hcr : (c - r) * (c + r) = 0 := by linear_combination -hcc
      rcases mul_eq_zero.1 hcr with h | h
      · left
        have hc' : c = r := by linarith
        rw [hc'] at hxa
        exact (smul_right_injective _ hr.ne' hxa).symm
      · right
        have hc' : c = -r := by linarith
        rw [hc', neg_smul, ← smul_neg] at hxa
        exact (smul_right_injective _ hr.ne' hxa).symm
    rcases hs with rfl | rfl
    · have ht' : axTest U e 1 = 0 := ht
      rw [ht', abs_zero, if_pos small_pos]
      rcases hsig hr2 hx2 (hp2.symm.trans hp) with h | h <;> simp [h]
    · have ht' : axTest U e (-1) = 0 := ht
      rw [ht', abs_zero, if_pos small_pos]
      rcases hsig hr1 hx1 (hp1.symm.trans hp) with h | h <;> simp [h]
  · intro hcl x hx
    rcases List.mem_append.1 hx with hx | hx
    · split_ifs at hx with ht
      · rw [List.mem_singleton] at hx
        exact ⟨x1, hx, axis_right h (by norm_num) hr1 hx1 hp1 (hcl (-1) (.inl rfl) ht)⟩
      · simp at hx
    · split_ifs at hx with ht
      · rw [List.mem_singleton] at hx
        exact ⟨x2, hx, axis_right h (by norm_num) hr2 hx2 hp2 (hcl 1 (.inr rfl) ht)⟩
      · simp at hx

/-- **C69**, compound pairs: without near misses `iscompound()` is true iff two half turns with different axes
carry `Ui` to `Uj`, and then `istypeI()` and `istypeII()` are false. -/
theorem C69_compound (eig : Mat3 → EigRes) (heig : ∀ A, Aᵀ = A → EigOK (eig A).vals (eig A).vecs A)
    (U V : Mat3) (hU : IsSPD U) (hV : IsSPD V) (hrel : Related U V)
    (hd : ∃ i j, 1 / 10 ^ 12 ≤ |U i j - V i j|) (hc : RankOneConnected U V) (skip : Bool) :
    ∃ p, TwinPair.new eig U V skip = .ok p ∧ (Clean p → ∃ b, p.isCompound = .ok b ∧ p.isTypeI = .ok (!b) ∧
      (b = true ↔ ∃ e e', IsTwinAxis U V e ∧ IsTwinAxis U V e' ∧ e' ≠ e ∧ e' ≠ -e)) := by
  classical
  obtain ⟨p, l, hp, hl, hne, hall, hax⟩ := C69_axes eig heig U V hU hV hrel hd hc skip
  refine ⟨p, hp, fun hcl => ⟨decide (1 < l.length), by simp [TwinPair.isCompound, hl],
    by simp [TwinPair.isTypeI, TwinPair.isCompound, hl], ?_⟩⟩
  have h := setup eig heig hU hV hrel hd hc
  rw [new_ok eig hU hV] at hp
  cases hp
  set e := sortEig eig (relMetric U V) with he
  obtain ⟨r1, x1, hr1, hx1, hp1, ha1⟩ := axis_eval h (s := -1) (by norm_num)
  obtain ⟨r2, x2, hr2, hx2, hp2, ha2⟩ := axis_eval h (s := 1) (by norm_num)
  have hl' := hl
  unfold TwinPair.ax at hl'
  rw [if_neg (by rw [h.twinnable]; simp), ha1, ha2] at hl'
  simp only [Except.ok.injEq] at hl'
  constructor
  · intro hb
    have hlen : 1 < l.length := by simpa using hb
    rw [← hl'] at hlen
    have t1 : |axTest U e (-1)| < small := by
      by_contra hc
      rw [if_neg hc] at hlen
      split_ifs at hlen <;> simp at hlen
    have t2 : |axTest U e 1| < small := by
      by_contra hc
      rw [if_neg hc] at hlen
      split_ifs at hlen <;> simp at hlen
    refine ⟨x1, x2, axis_right h (by norm_num) hr1 hx1 hp1 (hcl (-1) (.inl rfl) t1),
      axis_right h (by norm_num) hr2 hx2 hp2 (hcl 1 (.inr rfl) t2), ?_⟩
    have hq : 0 < Real.sqrt (e.vals 2) := Real.sqrt_pos.2 (by have := h.frame.gt; linarith)
    have key : ∀ c : ℝ, x2 ≠ c • x1 := by
      intro c hc
      have hv : r1 • (r2 • x2) = (c * r2) • (r1 • x1) := by
        rw [hc, smul_smul, smul_smul, smul_smul]; congr 1; ring
      rw [← hp1, ← hp2, axisVec, axisVec] at hv
      have h0 := frame_indep h.frame (c := ![r1 - c * r2, 0, r1 * Real.sqrt (e.vals 2) + c * r2 * Real.sqrt (e.vals 2)])
        (by
          funext i
          have := congrFun hv i
          simp only [Pi.smul_apply, Pi.add_apply, smul_eq_mul, cons_val, Pi.zero_apply] at this ⊢
          linear_combination this)
      have a0 := congrFun h0 0
      have a2 := congrFun h0 2
      simp only [cons_val, Pi.zero_apply] at a0 a2
      have : 2 * r1 * Real.sqrt (e.vals 2) = 0 := by linear_combination Real.sqrt (e.vals 2) * a0 + a2
      have : 0 < 2 * r1 * Real.sqrt (e.vals 2) := by positivity
      linarith
    exact ⟨fun hx => key 1 (by rw [hx, one_smul]), fun hx => key (-1) (by rw [hx, neg_one_smul])⟩
  · rintro ⟨a, b, ha, hb, h1, h2⟩
    by_contra hlen
    have hlen' : l.length ≤ 1 := by simpa using hlen
    cases l with
    | nil => exact hne rfl
    | cons x xs =>
      have : xs = [] := by cases xs with
        | nil => rfl
        | cons y ys => simp at hlen'
      subst this
      simp only [List.mem_singleton] at hall
      rcases hall a ha with ka | ka <;> rcases hall b hb with kb | kb <;>
        have k := ka.trans kb.symm <;> simp only [Option.some.injEq] at k
      · exact h1 k.symm
      · exact h2 (by rw [k, neg_neg])
      · exact h2 k.symm
      · exact h1 (neg_injective k).symm

/-! ## C55 -/

theorem vnorm_unit {x : V3} (h : x ⬝ᵥ x = 1) : vnorm x = 1 := by rw [vnorm, h, Real.sqrt_one]

theorem mulVec_ne {U : Mat3} (hU : U.det ≠ 0) {x : V3} (hx : x ≠ 0) : U *ᵥ x ≠ 0 := by
  intro h0
  apply hx
  have := congrArg (fun y => U⁻¹ *ᵥ y) h0
  simpa [mulVec_mulVec, nonsing_inv_mul _ (isUnit_iff_ne_zero.2 hU)] using this

theorem inv_det_ne {U : Mat3} (hU : U.det ≠ 0) : (U⁻¹).det ≠ 0 := by
  rw [det_nonsing_inv, Ring.inverse_eq_inv']
  exact inv_ne_zero hU

theorem unit_ne {x : V3} (h : x ⬝ᵥ x = 1) : x ≠ 0 := by
  rintro rfl
  simp at h

theorem first_solution {U V : Mat3} (hU : IsSPD U) (hV : V.det ≠ 0) {e : V3} (he : IsTwinAxis U V e)
    (rnd : ℝ → ℝ) : ∃ x, twinSol1 rnd U V e = some x ∧ RoundedTwin rnd U V x.1 x.2.1 x.2.2 := by
  have hUd := (spd_det_pos hU).ne'
  have hg : U *ᵥ (U⁻¹ *ᵥ e) = e := by
    rw [mulVec_mulVec, mul_nonsing_inv _ (isUnit_iff_ne_zero.2 hUd), one_mulVec]
  have hden : (U⁻¹ *ᵥ e) ⬝ᵥ (U⁻¹ *ᵥ e) ≠ 0 := fun h =>
    mulVec_ne (inv_det_ne hUd) (unit_ne he.1) (dotProduct_self_eq_zero.1 h)
  obtain ⟨Q, hQ, hQe⟩ := twin_one hU.1 hg hden he.1
  have hV' : halfTurn e * U * halfTurn e = V := by rw [← he.2, halfTurn_symm]
  rw [hV'] at hQe
  unfold twinSol1
  simp only
  rw [if_neg hden, vnorm_unit he.1, if_neg one_ne_zero]
  refine ⟨_, rfl, Q, (2 : ℝ) • (((U⁻¹ *ᵥ e) ⬝ᵥ (U⁻¹ *ᵥ e))⁻¹ • U⁻¹ *ᵥ e - U *ᵥ e), e,
    ⟨hQ, he.1, by rw [hQe]; abel⟩, ?_, ?_, ?_⟩
  · intro i; simp only [one_smul]
  · intro i; simp only [inv_one, one_smul]
  · simp only
    rw [Matrix.mul_assoc, nonsing_inv_mul _ (isUnit_iff_ne_zero.2 hV), Matrix.mul_one, outer_eq]
    abel

theorem second_solution {U V : Mat3} (hU : IsSPD U) (hV : IsSPD V) (hne : U ≠ V) {e : V3}
    (he : IsTwinAxis U V e) (rnd : ℝ → ℝ) :
    ∃ x, twinSol2 rnd U V e = some x ∧ RoundedTwin rnd U V x.1 x.2.1 x.2.2 := by
  have hUd := (spd_det_pos hU).ne'
  have hden : (U *ᵥ e) ⬝ᵥ (U *ᵥ e) ≠ 0 := fun h =>
    mulVec_ne hUd (unit_ne he.1) (dotProduct_self_eq_zero.1 h)
  obtain ⟨Q, hQ, hQe⟩ := twin_two hU.1 hden he.1
  have hV' : halfTurn e * U * halfTurn e = V := by rw [← he.2, halfTurn_symm]
  rw [hV'] at hQe
  set n := (2 : ℝ) • (e - ((U *ᵥ e) ⬝ᵥ (U *ᵥ e))⁻¹ • U *ᵥ (U *ᵥ e)) with hn
  have hn0 : vnorm n ≠ 0 := by
    intro h0
    rw [vnorm_eq_zero] at h0
    rw [h0, vecMulVec_zero, add_zero] at hQe
    apply hne
    refine spd_sq_inj hU hV ?_
    have hQt : Qᵀ * Q = 1 := mul_eq_one_comm.1 hQ.1
    calc U * U = Uᵀ * U := by rw [hU.1]
      _ = Vᵀ * (Qᵀ * Q) * V := by rw [← hQe, transpose_mul]; simp only [Matrix.mul_assoc]
      _ = V * V := by rw [hQt, Matrix.mul_one, hV.1]
  have hnn := vnorm_sq n
  unfold twinSol2
  simp only
  rw [if_neg hden, ← hn, if_neg hn0]
  clear_value n
  refine ⟨_, rfl, Q, vnorm n • U *ᵥ e, (vnorm n)⁻¹ • n, ⟨hQ, ?_, ?_⟩, fun i => rfl, fun i => rfl, ?_⟩
  · rw [smul_dotProduct, dotProduct_smul, ← hnn, smul_eq_mul, smul_eq_mul]
    field_simp
  · rw [hQe, smul_vecMulVec, vecMulVec_smul, smul_smul, mul_inv_cancel₀ hn0, one_smul]
    abel
  · simp only
    rw [Matrix.mul_assoc, nonsing_inv_mul _ (isUnit_iff_ne_zero.2 (spd_det_pos hV).ne'), Matrix.mul_one, outer_eq]
    abel

/-- `_solvetwin` for an exact axis. -/
theorem solveTwin_axis (eig : Mat3 → EigRes) (t : Tol) (rnd : ℝ → ℝ) {U V : Mat3} (hU : IsSPD U) (hV : IsSPD V)
    (hne : U ≠ V) {vs : List M3} (hvs : Mart.getVariants t ⟨some U, cubicR⟩ = .ok vs) (hmem : V ∈ vs)
    {e : V3} (he : IsTwinAxis U V e) :
    ∃ x y, solveTwin eig t rnd false U V (some (some e)) = .ok (some (some x, some y)) ∧
      RoundedTwin rnd U V x.1 x.2.1 x.2.2 ∧ RoundedTwin rnd U V y.1 y.2.1 y.2.2 := by
  obtain ⟨x, hx, hx'⟩ := first_solution hU (spd_det_pos hV).ne' he rnd
  obtain ⟨y, hy, hy'⟩ := second_solution hU hV hne he rnd
  refine ⟨x, y, ?_, hx', hy'⟩
  have hunit : unitVec e = some e := unitVec_of_isDirection ⟨he.1, 1, one_pos, (one_smul _ _).symm⟩
  have hv : isVariant t U (some V) = .ok true := by
    unfold isVariant
    rw [hvs]
    simp only [Except.ok.injEq]
    rw [List.any_eq_true]
    refine ⟨V, hmem, decide_eq_true ?_⟩
    rw [sub_self, fnorm]
    norm_num [small]
  unfold solveTwin
  simp only [Option.bind_some, hunit, Option.map_some, r180_eq, he.2, hv]
  rw [if_neg (by simp), if_neg (spd_det_pos hU).ne', if_neg (spd_det_pos hV).ne', hx, hy]

/-- **C55** (partial): for every rank-one connected pair of distinct variants under the cubic group whose
axis tests have no near misses, `twinparam()` returns two solutions; each satisfies `Q Uj = Ui + a ⊗ n`,
and `a` and `n` are the rounded values (`rnd` is `np.round(·, 10)`) of an exact solution of the
twinning equation.  Missing: pairs that are not variants of each other (`C55_unrelated_fails`), and that
`n` has length one after rounding (`C55_rounding_fails`). -/
theorem C55_twinparam_partial (eig : Mat3 → EigRes)
    (heig : ∀ A, Aᵀ = A → EigOK (eig A).vals (eig A).vecs A) (t : Tol) (rnd : ℝ → ℝ)
    (U V : Mat3) (hU : IsSPD U) (hV : IsSPD V) (hrel : Related U V)
    (hd : ∃ i j, 1 / 10 ^ 12 ≤ |U i j - V i j|) (hc : RankOneConnected U V)
    (vs : List M3) (hvs : Mart.getVariants t ⟨some U, cubicR⟩ = .ok vs) (hmem : V ∈ vs) (skip : Bool) :
    ∃ p, TwinPair.new eig U V skip = .ok p ∧ (Clean p →
      ∃ Q₁ a₁ n₁ Q₂ a₂ n₂, p.twinParam eig t rnd false = .ok (some (some (Q₁, a₁, n₁), some (Q₂, a₂, n₂))) ∧
        RoundedTwin rnd U V Q₁ a₁ n₁ ∧ RoundedTwin rnd U V Q₂ a₂ n₂) := by
  obtain ⟨p, l, hp, hl, hne, _, hax⟩ := C69_axes eig heig U V hU hV hrel hd hc skip
  refine ⟨p, hp, fun hcl => ?_⟩
  rw [new_ok eig hU hV] at hp
  cases hp
  have hUV : U ≠ V := by
    rintro rfl
    obtain ⟨i, j, h⟩ := hd
    rw [sub_self, abs_zero] at h
    norm_num at h
  cases l with
  | nil => exact absurd rfl hne
  | cons x xs =>
    obtain ⟨e, rfl, he⟩ := hax hcl x (by simp)
    obtain ⟨⟨Q₁, a₁, n₁⟩, ⟨Q₂, a₂, n₂⟩, h1, h2, h3⟩ := solveTwin_axis eig t rnd hU hV hUV hvs hmem he
    refine ⟨Q₁, a₁, n₁, Q₂, a₂, n₂, ?_, h2, h3⟩
    unfold TwinPair.twinParam
    rw [if_neg (by rw [(setup eig heig hU hV hrel hd hc).twinnable]; simp), hl]
    simpa using h1

/-- **C55** without rounding: the twinning equation is solved exactly. -/
theorem C55_exact (eig : Mat3 → EigRes) (heig : ∀ A, Aᵀ = A → EigOK (eig A).vals (eig A).vecs A) (t : Tol)
    (U V : Mat3) (hU : IsSPD U) (hV : IsSPD V) (hrel : Related U V)
    (hd : ∃ i j, 1 / 10 ^ 12 ≤ |U i j - V i j|) (hc : RankOneConnected U V)
    (vs : List M3) (hvs : Mart.getVariants t ⟨some U, cubicR⟩ = .ok vs) (hmem : V ∈ vs) (skip : Bool) :
    ∃ p, TwinPair.new eig U V skip = .ok p ∧ (Clean p →
      ∃ Q₁ a₁ n₁ Q₂ a₂ n₂, p.twinParam eig t id false = .ok (some (some (Q₁, a₁, n₁), some (Q₂, a₂, n₂))) ∧
        SolvesTwin U V Q₁ a₁ n₁ ∧ SolvesTwin U V Q₂ a₂ n₂) := by
  obtain ⟨p, hp, h⟩ := C55_twinparam_partial eig heig t id U V hU hV hrel hd hc vs hvs hmem skip
  refine ⟨p, hp, fun hcl => ?_⟩
  obtain ⟨Q₁, a₁, n₁, Q₂, a₂, n₂, h1, h2, h3⟩ := h hcl
  have key : ∀ {Q a n}, RoundedTwin id U V Q a n → SolvesTwin U V Q a n := by
    rintro Q a n ⟨Q', a', n', h, ha, hn, hq⟩
    obtain rfl : a = a' := funext ha
    obtain rfl : n = n' := funext hn
    have : Q = Q' := by
      have e : Q * V = Q' * V := by
        have := hq.trans h.equation.symm
        exact sub_left_injective this
      calc Q = Q * V * V⁻¹ := by
            rw [Matrix.mul_assoc, mul_nonsing_inv _ (isUnit_iff_ne_zero.2 (spd_det_pos hV).ne'), Matrix.mul_one]
        _ = Q' := by
          rw [e, Matrix.mul_assoc, mul_nonsing_inv _ (isUnit_iff_ne_zero.2 (spd_det_pos hV).ne'), Matrix.mul_one]
    rw [this]
    exact h
  exact ⟨Q₁, a₁, n₁, Q₂, a₂, n₂, h1, key h2, key h3⟩

/-- The rounding moves every entry by at most 5e-11. -/
theorem C55_rounding (x : ℝ) : |rnd10 x - x| ≤ 5 / 10 ^ 11 := by
  have h := Lemmas.roundEven_near (x * 10 ^ 10)
  have e : rnd10 x - x = -((x * 10 ^ 10 - roundEven (x * 10 ^ 10)) / 10 ^ 10) := by
    unfold rnd10
    field_simp
    ring
  rw [e, abs_neg, abs_div, abs_of_pos (by norm_num : (0 : ℝ) < 10 ^ 10), div_le_iff₀ (by norm_num)]
  exact h.trans (by norm_num)

/-- With a version of numpy that compares arrays with `None` entry by entry, `twinparam()` raises
`ValueError` whenever there is an axis. -/
theorem C55_elementwise (eig : Mat3 → EigRes) (t : Tol) (rnd : ℝ → ℝ) (p : TwinPair) (l : List (Option V3))
    (h1 : p.isTwinnable = true) (hl : p.ax = .ok l) (hne : l ≠ []) :
    p.twinParam eig t rnd true = .error .valueError := by
  unfold TwinPair.twinParam
  rw [if_neg (by rw [h1]; simp), hl]
  cases l with
  | nil => exact absurd rfl hne
  | cons x xs => simp [solveTwin]

/-! ### the tetragonal pair -/

theorem diag_eigvec {d : Fin 3 → ℝ} {x : V3} {c : ℝ} (h : diagonal d *ᵥ x = c • x) (i : Fin 3) (hi : d i ≠ c) :
    x i = 0 := by
  have := congrFun h i
  rw [mulVec_diagonal, Pi.smul_apply, smul_eq_mul] at this
  have h2 : (d i - c) * x i = 0 := by linear_combination this
  rcases mul_eq_zero.1 h2 with h | h
  · exact absurd (sub_eq_zero.1 h) hi
  · exact h

theorem tetra_clean (eig : Mat3 → EigRes) (heig : ∀ A, Aᵀ = A → EigOK (eig A).vals (eig A).vecs A) :
    Clean ⟨tetra, tetra2, sortEig eig (relMetric tetra tetra2)⟩ := by
  intro s _ _
  obtain ⟨he, hv⟩ := sorted_eq (heig _ (relMetric_symm tetra_spd.1 tetra2_spd.1)) tetra_sorted
  set e := sortEig eig (relMetric tetra tetra2)
  have hvec := he.eigenvector
  rw [tetra_metric, hv] at hvec
  have a0 := diag_eigvec (hvec 0) 0 (by norm_num)
  have a1 := diag_eigvec (hvec 0) 1 (by norm_num)
  have b1 := diag_eigvec (hvec 1) 1 (by norm_num)
  have b2 := diag_eigvec (hvec 1) 2 (by simp)
  have c0 := diag_eigvec (hvec 2) 0 (by simp)
  show axTest tetra e s = 0
  unfold axTest
  rw [tetra_eq, Lemmas.dot3, Lemmas.dot3]
  simp only [mulVec_diagonal, a0, a1, b1, b2, c0]
  simp

theorem tetra_variants : ∃ vs, Mart.getVariants .code ⟨some tetra, cubicR⟩ = .ok vs ∧ tetra2 ∈ vs := by
  have h := variants_spec (t := .code) cubicR_group cubicR_nodup cubicR_ortho tetra_sep
  refine ⟨_, ?_, (h.orbit tetra2).2 ⟨toR !![-1, 0, 0; 0, 0, 1; 0, 1, 0], ?_, ?_⟩⟩
  · simp [Mart.getVariants, Mart.calcVariants, tetra_reversible]
  · exact List.mem_map_of_mem (by unfold cubicLaue; decide +kernel)
  · rw [tetra_eq, tetra2, diagonal_lit, diagonal_lit]
    ext i j
    fin_cases i <;> fin_cases j <;> simp [toR, Matrix.mul_apply, Fin.sum_univ_three]

-- the tetragonal pair meets all hypotheses of the theorems above
example (eig : Mat3 → EigRes) (heig : ∀ A, Aᵀ = A → EigOK (eig A).vals (eig A).vecs A) :
    ∃ p Q₁ a₁ n₁ Q₂ a₂ n₂, TwinPair.new eig tetra tetra2 false = .ok p ∧
      p.twinParam eig .code id false = .ok (some (some (Q₁, a₁, n₁), some (Q₂, a₂, n₂))) ∧
        SolvesTwin tetra tetra2 Q₁ a₁ n₁ ∧ SolvesTwin tetra tetra2 Q₂ a₂ n₂ := by
  obtain ⟨vs, h1, h2⟩ := tetra_variants
  obtain ⟨p, hp, h⟩ := C55_exact eig heig .code tetra tetra2 tetra_spd tetra2_spd tetra_related tetra_differ
    tetra_connected vs h1 h2 false
  have hcl : Clean p := by
    rw [new_ok eig tetra_spd tetra2_spd] at hp
    cases hp
    exact tetra_clean eig heig
  obtain ⟨Q₁, a₁, n₁, Q₂, a₂, n₂, h3⟩ := h hcl
  exact ⟨p, Q₁, a₁, n₁, Q₂, a₂, n₂, hp, h3⟩

theorem sym_dyad {n0 n1 d0 d1 : ℝ} (h00 : n0 * d0 = 0) (h01 : n0 * d1 + n1 * d0 = 0)
    (h11 : n1 * d1 ≠ 0) : n0 = 0 := by
  by_contra h
  have hd0 : d0 = 0 := (mul_eq_zero.1 h00).resolve_left h
  rw [hd0, mul_zero, add_zero] at h01
  have hd1 : d1 = 0 := (mul_eq_zero.1 h01).resolve_left h
  exact h11 (by rw [hd1, mul_zero])

theorem solvesTwin_sq {U V Q : Mat3} {a n : V3} (hU : Uᵀ = U) (hV : Vᵀ = V) (h : SolvesTwin U V Q a n) :
    V * V = U * U + (vecMulVec n (U *ᵥ a) + vecMulVec (U *ᵥ a) n + (a ⬝ᵥ a) • vecMulVec n n) := by
  have hQ : Qᵀ * Q = 1 := mul_eq_one_comm.1 h.rotation.1
  have hQV : Q * V = U + vecMulVec a n := by rw [← h.equation]; abel
  calc V * V = Vᵀ * (Qᵀ * Q) * V := by rw [hQ, Matrix.mul_one, hV]
    _ = (Q * V)ᵀ * (Q * V) := by rw [transpose_mul]; simp only [Matrix.mul_assoc]
    _ = _ := by
      rw [hQV, transpose_add, transpose_vecMulVec, hU, add_mul, mul_add, mul_add, mul_vecMulVec, vecMulVec_mul,
        ← mulVec_transpose, hU, vecMulVec_mul_vecMulVec, vecMulVec_smul]
      abel

/-- Both twin planes of the tetragonal pair have normals `(0, ±1/√2, ±1/√2)`. -/
theorem tetra_normal {Q : Mat3} {a n : V3} (h : SolvesTwin tetra tetra2 Q a n) :
    n 0 = 0 ∧ 2 * (n 1 * n 1) = 1 ∧ 2 * (n 2 * n 2) = 1 := by
  have h1 := solvesTwin_sq tetra_spd.1 tetra2_spd.1 h
  have hu := h.unit
  rw [Lemmas.dot3] at hu
  set c := tetra *ᵥ a
  clear_value c
  rw [tetra_eq, tetra2, diagonal_mul_diagonal, diagonal_mul_diagonal] at h1
  have e : ∀ i j, (diagonal (fun i => (![1, 2, 1] : Fin 3 → ℝ) i * (![1, 2, 1] : Fin 3 → ℝ) i) : Mat3) i j =
      (diagonal (fun i => (![1, 1, 2] : Fin 3 → ℝ) i * (![1, 1, 2] : Fin 3 → ℝ) i) : Mat3) i j +
      (n i * c j + c i * n j + (a ⬝ᵥ a) * (n i * n j)) := by
    intro i j
    rw [h1]
    simp [vecMulVec_apply]
  set t := a ⬝ᵥ a
  clear_value t
  have e00 := e 0 0
  have e01 := e 0 1
  have e02 := e 0 2
  have e11 := e 1 1
  have e12 := e 1 2
  have e22 := e 2 2
  simp at e00 e01 e02 e11 e12 e22
  set d0 := c 0 + t / 2 * n 0 with hd0
  set d1 := c 1 + t / 2 * n 1 with hd1
  set d2 := c 2 + t / 2 * n 2 with hd2
  have f00 : n 0 * d0 = 0 := by rw [hd0]; linear_combination (1 / 2 : ℝ) * e00
  have f01 : n 0 * d1 + n 1 * d0 = 0 := by rw [hd0, hd1]; linear_combination -e01
  have f11 : n 1 * d1 = 3 / 2 := by rw [hd1]; linear_combination -(1 / 2 : ℝ) * e11
  have f22 : n 2 * d2 = -3 / 2 := by rw [hd2]; linear_combination -(1 / 2 : ℝ) * e22
  have f12 : n 1 * d2 + n 2 * d1 = 0 := by rw [hd1, hd2]; linear_combination -e12
  have n0 : n 0 = 0 := sym_dyad f00 f01 (by rw [f11]; norm_num)
  have hn2 : n 1 * n 1 = n 2 * n 2 := by
    have : (n 1 * n 1 - n 2 * n 2) * (3 / 2) = 0 := by
      linear_combination -(n 1 * n 2) * f12 + (n 1 * n 1) * f22 + (n 2 * n 2) * f11
    linarith
  rw [n0] at hu
  refine ⟨n0, by linarith, by linarith⟩

theorem rnd10_half {x : ℝ} (h : 2 * (x * x) = 1) : rnd10 x * rnd10 x = (7071067812 / 10 ^ 10) ^ 2 := by
  have key : ∀ y : ℝ, 0 < y → 2 * (y * y) = 1 → |y * 10 ^ 10 - 7071067812| < 1 / 2 := by
    intro y hy h
    rw [abs_lt]
    constructor <;> nlinarith
  rcases lt_or_ge 0 x with hx | hx
  · have hk := key x hx h
    have : roundEven (x * 10 ^ 10) = 7071067812 := Lemmas.roundEven_of_near (by exact_mod_cast hk)
    rw [rnd10, this]
    norm_num
  · have hx0 : x ≠ 0 := by rintro rfl; norm_num at h
    have hx' : 0 < -x := by
      rcases lt_or_eq_of_le hx with h | h
      · linarith
      · exact absurd h hx0
    have hk := key (-x) hx' (by linarith)
    have hk' : |x * 10 ^ 10 - ((-7071067812 : ℤ) : ℝ)| < 1 / 2 := by
      rw [← abs_neg]
      convert hk using 2
      push_cast
      ring
    have : roundEven (x * 10 ^ 10) = -7071067812 := Lemmas.roundEven_of_near hk'
    rw [rnd10, this]
    norm_num

/-- **C55**, rounding: the normals returned for the tetragonal pair do not have length one. -/
theorem C55_rounding_fails (eig : Mat3 → EigRes) (heig : ∀ A, Aᵀ = A → EigOK (eig A).vals (eig A).vecs A) :
    ∃ U V p Q₁ a₁ n₁ Q₂ a₂ n₂, IsSPD U ∧ IsSPD V ∧ Related U V ∧ RankOneConnected U V ∧
      TwinPair.new eig U V false = .ok p ∧
      p.twinParam eig .code rnd10 false = .ok (some (some (Q₁, a₁, n₁), some (Q₂, a₂, n₂))) ∧
      n₁ ⬝ᵥ n₁ ≠ 1 ∧ n₂ ⬝ᵥ n₂ ≠ 1 := by
  obtain ⟨vs, h1, h2⟩ := tetra_variants
  obtain ⟨p, hp, h⟩ := C55_twinparam_partial eig heig .code rnd10 tetra tetra2 tetra_spd tetra2_spd
    tetra_related tetra_differ tetra_connected vs h1 h2 false
  have hcl : Clean p := by
    rw [new_ok eig tetra_spd tetra2_spd] at hp
    cases hp
    exact tetra_clean eig heig
  obtain ⟨Q₁, a₁, n₁, Q₂, a₂, n₂, h3, h4, h5⟩ := h hcl
  have key : ∀ {Q a n}, RoundedTwin rnd10 tetra tetra2 Q a n → n ⬝ᵥ n ≠ 1 := by
    rintro Q a n ⟨Q', a', n', hs, _, hn, _⟩
    obtain ⟨g0, g1, g2⟩ := tetra_normal hs
    rw [Lemmas.dot3, hn, hn, hn, rnd10_half g1, rnd10_half g2, g0]
    have : rnd10 0 = 0 := by
      have := Lemmas.roundEven_intCast 0
      rw [rnd10, zero_mul]
      rw [Int.cast_zero] at this
      rw [this]
      norm_num
    rw [this]
    norm_num
  exact ⟨tetra, tetra2, p, Q₁, a₁, n₁, Q₂, a₂, n₂, tetra_spd, tetra2_spd, tetra_related, tetra_connected, hp, h3,
    key h4, key h5⟩

/-! ### a pair that is no pair of variants -/

/-- Distinct eigenvalues: the eigenvectors of a symmetric matrix are independent. -/
theorem eig_indep {A : Mat3} (hA : Aᵀ = A) {v : Fin 3 → ℝ} {x : Fin 3 → V3} (h : EigOK v x A)
    {l : Fin 3 → ℝ} (hl : IsEigenvalues A l) (hinj : Function.Injective l) : LinearIndependent ℝ x := by
  have hv : Function.Injective v := by
    have h1 := isEigenvalues_multiset h.eigenvalues
    rw [isEigenvalues_multiset hl] at h1
    have h2 : (Finset.univ.val.map v).Nodup := by
      rw [← h1]
      exact (Multiset.nodup_map_iff_of_injective hinj).2 Finset.univ.nodup
    intro i j hij
    exact Multiset.inj_on_of_nodup_map h2 i (Finset.mem_univ i) j (Finset.mem_univ j) hij
  have ho : ∀ i j, i ≠ j → x i ⬝ᵥ x j = 0 := fun i j hij =>
    eig_orth hA (h.eigenvector i) (h.eigenvector j) fun e => hij (hv e)
  rw [Fintype.linearIndependent_iff]
  intro g hg i
  have := congrArg (fun y => x i ⬝ᵥ y) hg
  simp only [dotProduct_sum, dotProduct_smul, dotProduct_zero, smul_eq_mul] at this
  rw [Finset.sum_eq_single i (fun j _ hj => by rw [ho i j (Ne.symm hj), mul_zero])
    (fun h => absurd (Finset.mem_univ i) h), h.unit, mul_one] at this
  exact this

/-- Two symmetric positive definite matrices that are rank-one connected but not similar. -/
noncomputable def skewU : Mat3 := !![12, 7, 0; 7, 6, 0; 0, 0, 1]
noncomputable def skewV : Mat3 := !![193 / 25, 126 / 25, 0; 126 / 25, 239 / 50, 0; 0, 0, 2]

theorem spd_block {a b c d : ℝ} (ha : 0 < a) (hd : 0 < d) (h : b * b < a * c) :
    IsSPD !![a, b, 0; b, c, 0; 0, 0, d] := by
  constructor
  · ext i j; fin_cases i <;> fin_cases j <;> rfl
  · intro x hx
    have e : x ⬝ᵥ !![a, b, 0; b, c, 0; 0, 0, d] *ᵥ x =
        a * (x 0) ^ 2 + 2 * b * x 0 * x 1 + c * (x 1) ^ 2 + d * (x 2) ^ 2 := by
      simp [dotProduct, mulVec, Fin.sum_univ_three]
      ring
    rw [e]
    by_contra hn
    push Not at hn
    have k : (a * x 0 + b * x 1) ^ 2 + (a * c - b * b) * (x 1) ^ 2 + a * d * (x 2) ^ 2 ≤ 0 := by nlinarith
    have had : 0 < a * d := mul_pos ha hd
    have q1 := mul_nonneg (sub_nonneg.2 h.le) (sq_nonneg (x 1))
    have q2 := mul_nonneg had.le (sq_nonneg (x 2))
    have q0 := sq_nonneg (a * x 0 + b * x 1)
    have z1 : x 1 = 0 := by
      have : (a * c - b * b) * (x 1) ^ 2 = 0 := by linarith
      rcases mul_eq_zero.1 this with h' | h'
      · linarith
      · exact pow_eq_zero_iff (two_ne_zero) |>.1 h'
    have z2 : x 2 = 0 := by
      have : a * d * (x 2) ^ 2 = 0 := by linarith
      rcases mul_eq_zero.1 this with h' | h'
      · linarith
      · exact pow_eq_zero_iff (two_ne_zero) |>.1 h'
    have z0 : x 0 = 0 := by
      have : (a * x 0 + b * x 1) ^ 2 = 0 := by linarith
      have h' := pow_eq_zero_iff (two_ne_zero) |>.1 this
      rw [z1, mul_zero, add_zero] at h'
      exact (mul_eq_zero.1 h').resolve_left ha.ne'
    apply hx
    funext i
    fin_cases i
    · exact z0
    · exact z1
    · exact z2

theorem skewU_spd : IsSPD skewU := spd_block (by norm_num) (by norm_num) (by norm_num)
theorem skewV_spd : IsSPD skewV := spd_block (by norm_num) (by norm_num) (by norm_num)

theorem skew_metric : relMetric skewU skewV = diagonal ![1 / 4, 1, 4] := by
  have h : skewV * skewV = skewU * diagonal ![1 / 4, 1, 4] * skewU := by
    rw [diagonal_lit, skewU, skewV]
    ext i j
    fin_cases i <;> fin_cases j <;> simp [Matrix.mul_apply, Fin.sum_univ_three] <;> norm_num
  have hu : IsUnit skewU.det := (spd_det_pos skewU_spd).ne'.isUnit
  calc relMetric skewU skewV = skewU⁻¹ * (skewV * skewV) * skewU⁻¹ := by
        rw [relMetric]; simp only [Matrix.mul_assoc]
    _ = (skewU⁻¹ * skewU) * diagonal ![1 / 4, 1, 4] * (skewU * skewU⁻¹) := by
        rw [h]; simp only [Matrix.mul_assoc]
    _ = _ := by rw [nonsing_inv_mul _ hu, mul_nonsing_inv _ hu, Matrix.one_mul, Matrix.mul_one]

theorem skew_sorted : SortedEigenvalues (relMetric skewU skewV) ![1 / 4, 1, 4] := by
  rw [skew_metric]
  exact sorted_diagonal (mono_three (by norm_num) (by norm_num))

theorem skew_connected : RankOneConnected skewU skewV := by
  have h := rankOne_iff (spd_det_pos skewU_spd).ne' (mul_pos (spd_det_pos skewU_spd) (spd_det_pos skewV_spd))
    (l := ![1 / 4, 1, 4]) (by rw [← relMetric_gram skewU_spd.1 skewV_spd.1]; exact skew_sorted)
  exact h.2 rfl

theorem skew_differ : ∃ i j, 1 / 10 ^ 12 ≤ |skewU i j - skewV i j| := by
  refine ⟨2, 2, ?_⟩
  simp [skewU, skewV]
  norm_num

theorem skew_normal {b m : V3} (h : SolvesRankOne (relMetric skewU skewV) b m) : m 0 ≠ 0 ∧ m 2 ≠ 0 := by
  obtain ⟨_, h2⟩ := h
  rw [skew_metric, diagonal_lit, dyad_square] at h2
  have e00 := congrFun (congrFun h2 0) 0
  have e22 := congrFun (congrFun h2 2) 2
  simp [vecMulVec_apply] at e00 e22
  constructor
  · intro h0; rw [h0] at e00; norm_num at e00
  · intro h0; rw [h0] at e22; norm_num at e22

/-- **C55**, a pair that is not related by a rotation: `twinparam()` returns "normals" `(1, 1, 1)`. -/
theorem C55_unrelated_fails (eig : Mat3 → EigRes) (heig : ∀ A, Aᵀ = A → EigOK (eig A).vals (eig A).vecs A)
    (t : Tol) (rnd : ℝ → ℝ) (elementwise : Bool) :
    ∃ U V p Q₁ a₁ n₁ Q₂ a₂ n₂, IsSPD U ∧ IsSPD V ∧ RankOneConnected U V ∧
      TwinPair.new eig U V false = .ok p ∧ p.isTwinnable = true ∧
      p.twinParam eig t rnd elementwise = .ok (some (some (Q₁, a₁, n₁), some (Q₂, a₂, n₂))) ∧
      n₁ = ![1, 1, 1] ∧ n₂ = ![1, 1, 1] ∧ ¬ SolvesTwin U V Q₁ a₁ n₁ ∧ ¬ SolvesTwin U V Q₂ a₂ n₂ := by
  classical
  have hsym := relMetric_symm skewU_spd.1 skewV_spd.1
  have hne := new_ok eig skewU_spd skewV_spd false
  set e := sortEig eig (relMetric skewU skewV) with hedef
  obtain ⟨he, hv⟩ := sorted_eq (heig _ hsym) skew_sorted
  rw [← hedef] at he hv
  obtain ⟨p', hp', _, ht⟩ := C54_istwinnable_partial eig heig skewU skewV skewU_spd skewV_spd false _ skew_sorted
  rw [hne] at hp'
  cases hp'
  have htw := ht skew_connected skew_differ
  have hvec := he.eigenvector
  have hunit := he.unit
  rw [skew_metric, hv] at hvec
  have a1 := diag_eigvec (hvec 0) 1 (by norm_num)
  have a2 := diag_eigvec (hvec 0) 2 (by simp; norm_num)
  have b0 := diag_eigvec (hvec 1) 0 (by norm_num)
  have b2 := diag_eigvec (hvec 1) 2 (by simp)
  have c0 := diag_eigvec (hvec 2) 0 (by simp; norm_num)
  have c1 := diag_eigvec (hvec 2) 1 (by simp)
  have u0 := hunit 0
  have u1 := hunit 1
  rw [Lemmas.dot3, a1, a2] at u0
  rw [Lemmas.dot3, b0, b2] at u1
  have hax : ∀ s, (TwinPair.mk skewU skewV e).axis s = .ok [] := by
    intro s
    unfold TwinPair.axis
    simp only
    rw [if_neg (by rw [hv]; simp), if_neg]
    rw [not_lt]
    have e1 : e.vecs 1 ⬝ᵥ (skewU * skewU) *ᵥ e.vecs 2 = 0 := by
      rw [Lemmas.dot3, b0, b2]
      simp [skewU, mulVec, dotProduct, Fin.sum_univ_three, c0, c1, Matrix.mul_apply]
    have e2 : e.vecs 1 ⬝ᵥ (skewU * skewU) *ᵥ e.vecs 0 = 126 * (e.vecs 1 1 * e.vecs 0 0) := by
      rw [Lemmas.dot3, b0, b2]
      simp [skewU, mulVec, dotProduct, Fin.sum_univ_three, a1, a2, Matrix.mul_apply]
      ring
    rw [e1, e2, mul_zero, zero_add]
    have h1 : |e.vecs 1 1 * e.vecs 0 0| = 1 := by
      have : (e.vecs 1 1 * e.vecs 0 0) ^ 2 = 1 := by
        have x0 : e.vecs 0 0 * e.vecs 0 0 = 1 := by linarith
        have x1 : e.vecs 1 1 * e.vecs 1 1 = 1 := by linarith
        linear_combination (e.vecs 1 1 * e.vecs 1 1) * x0 + x1
      rw [← sq_abs] at this
      exact (pow_eq_one_iff_of_nonneg (abs_nonneg _) two_ne_zero).1 this
    rw [abs_mul, h1]
    norm_num [small]
  have hC : IsSPD (relMetric skewU skewV) := by
    rw [skew_metric]; exact spd_diagonal (by intro i; fin_cases i <;> norm_num)
  have hli : LinearIndependent ℝ (eig (relMetric skewU skewV)).vecs := by
    refine eig_indep hsym (heig _ hsym) skew_sorted.2 ?_
    intro i j hij
    fin_cases i <;> fin_cases j <;> first | rfl | (exfalso; revert hij; simp; done) | (exfalso; revert hij; simp; norm_num)
  obtain ⟨R₁, b₁, m₁, R₂, b₂, m₂, S, hs, h1, h2, _⟩ :=
    (C57_solve_am eig heig _ hC _ skew_sorted rfl).2 (by simp; norm_num) hli
  have hnone : ∀ {R : Mat3} {b m : V3}, SolvesRankOne (relMetric skewU skewV) b m →
      ∃ a, twinSolNone skewU (R, b, m) = some (R, a, ![1, 1, 1]) := by
    intro R b m h
    obtain ⟨m0, m2⟩ := skew_normal h
    have hm1 : m 1 = 0 := by
      obtain ⟨_, h2⟩ := h
      rw [skew_metric, diagonal_lit, dyad_square] at h2
      have e11 := congrFun (congrFun h2 1) 1
      have e01 := congrFun (congrFun h2 1) 0
      have e00 := congrFun (congrFun h2 0) 0
      simp [vecMulVec_apply] at e00 e01 e11
      set tt := b ⬝ᵥ b
      clear_value tt
      exact sym_dyad (n0 := m 1) (n1 := m 0) (d0 := b 1 + tt / 2 * m 1) (d1 := b 0 + tt / 2 * m 0)
        (by linear_combination (1 / 2 : ℝ) * e11) (by linear_combination e01)
        (by
          have : m 0 * (b 0 + tt / 2 * m 0) = -3 / 8 := by linear_combination (1 / 2 : ℝ) * e00
          rw [this]; norm_num)
    have hr : skewUᵀ *ᵥ m = ![12 * m 0, 7 * m 0, m 2] := by
      rw [skewU_spd.1]
      funext i
      fin_cases i <;> simp [skewU, mulVec, dotProduct, Fin.sum_univ_three, hm1]
    refine ⟨fun i => (![12 * m 0, 7 * m 0, m 2] : V3) i * b i, ?_⟩
    unfold twinSolNone
    simp only [hr]
    rw [if_neg]
    · congr 3
      funext i
      fin_cases i
      · exact div_self (mul_ne_zero (by norm_num) m0)
      · exact div_self (mul_ne_zero (by norm_num) m0)
      · exact div_self m2
    · rintro ⟨i, hi⟩
      fin_cases i
      · exact mul_ne_zero (by norm_num) m0 hi
      · exact mul_ne_zero (by norm_num) m0 hi
      · exact m2 hi
  obtain ⟨a₁, ha₁⟩ := hnone (R := R₁) h1
  obtain ⟨a₂, ha₂⟩ := hnone (R := R₂) h2
  have hbad : ∀ Q a, ¬ SolvesTwin skewU skewV Q a ![1, 1, 1] := by
    intro Q a h
    have := h.unit
    simp at this
  refine ⟨skewU, skewV, _, R₁, a₁, _, R₂, a₂, _, skewU_spd, skewV_spd, skew_connected, hne, htw, ?_, rfl, rfl,
    hbad _ _, hbad _ _⟩
  unfold TwinPair.twinParam TwinPair.ax
  rw [if_neg (by rw [htw]; simp), if_neg (by rw [htw]; simp), hax, hax]
  simp only [List.append_nil, List.head?_nil, solveTwin]
  rw [if_neg (spd_det_pos skewU_spd).ne']
  have : skewU⁻¹ * skewV * (skewV * skewU⁻¹) = relMetric skewU skewV := rfl
  rw [this, hs]
  simp only [ha₁, ha₂]

end Verif.Props
