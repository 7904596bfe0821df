import Verif.Props.TwinFrac

/-!
# C70: habit planes of twinned laminates
-/

namespace Verif.Props

open Matrix Verif.Model Verif.Spec Verif.Lemmas

local notation "Mat3" => Matrix (Fin 3) (Fin 3) ℝ

theorem habit_rankOne {F : Mat3} {b m : V3} (hF : 0 < F.det) (h : HabitPlane F b m) :
    SolvesRankOne (Fᵀ * F) b m ∧ 0 < 1 + m ⬝ᵥ b := by
  obtain ⟨hm, P, hP, hPF⟩ := h
  refine ⟨⟨hm, ?_⟩, ?_⟩
  · rw [← dyad_transpose, ← hPF, transpose_mul]
    calc Fᵀ * Pᵀ * (P * F) = Fᵀ * (Pᵀ * P) * F := by simp only [Matrix.mul_assoc]
      _ = _ := by rw [mul_eq_one_comm.1 hP.1, Matrix.mul_one]
  · rw [← det_one_add_dyad, ← hPF, det_mul, hP.2, one_mul]
    exact hF

theorem rankOne_habit {F : Mat3} {b m : V3} (hF : 0 < F.det) (h : SolvesRankOne (Fᵀ * F) b m)
    (hd : 0 < (1 + vecMulVec b m : Mat3).det) : HabitPlane F b m := by
  refine ⟨h.1, (1 + vecMulVec b m) * F⁻¹, rotation_of_gram hF.ne' ?_ (mul_pos hd hF), ?_⟩
  · rw [dyad_transpose, h.2]
  · rw [Matrix.mul_assoc, nonsing_inv_mul _ hF.ne'.isUnit, Matrix.mul_one]

theorem solveAm_pairs {eig : Mat3 → EigRes} {C R₁ R₂ : Mat3} {b₁ m₁ b₂ m₂ : V3}
    (h : solveAm eig C = .ok (.two (R₁, b₁, m₁) (R₂, b₂, m₂))) :
    solveRank1 eig C = .ok (.two (b₁, m₁) (b₂, m₂)) := by
  classical
  unfold solveAm at h
  unfold solveRank1
  simp only at h ⊢
  split_ifs at h with g1 g2 g3 g4 g5 g6
  all_goals try (simp at h; done)
  rw [if_neg (not_not.2 g1), if_neg g2, if_neg (by push Not at g3 g4 ⊢; exact ⟨g3.1, g3.2, g4.1, g4.2⟩)]
  simp only [Except.ok.injEq, AMRes.two.injEq, Prod.mk.injEq] at h ⊢
  obtain ⟨⟨_, h1⟩, _, h2⟩ := h
  exact ⟨h1, h2⟩

/-- What `_solve_am` returns for the metric of a deformation `F`: exactly the habit planes of `F`. -/
structure AllHabits (F : Mat3) (x y : Option (Mat3 × V3 × V3)) : Prop where
  sound : ∀ z ∈ [x, y], ∃ R b m S, z = some (R, b, m) ∧ HabitPlane F b m ∧ IsSPD S ∧ S * S = Fᵀ * F ∧
    IsRotation R ∧ R * S = 1 + vecMulVec b m
  complete : ∀ b m, HabitPlane F b m → ∃ z ∈ [x, y], ∃ R, z = some (R, b, m) ∨ z = some (R, -b, -m)

theorem am_habits (eig : Mat3 → EigRes) (heig : ∀ A, Aᵀ = A → EigOK (eig A).vals (eig A).vecs A)
    {F : Mat3} (hF : 0 < F.det) {l : Fin 3 → ℝ} (hl : SortedEigenvalues (Fᵀ * F) l) (h0 : l 0 < 1)
    (h1 : l 1 = 1) (h2 : 1 < l 2) (hgap : 1 / 10 ^ 24 ≤ l 2 - l 0) :
    ∃ x y, extendAm eig (Fᵀ * F) = .ok [x, y] ∧ AllHabits F x y := by
  have hC := spd_of_gram hF.ne'
  have hinj : Function.Injective l := by
    have a01 : l 0 < l 1 := by rw [h1]; exact h0
    have a12 : l 1 < l 2 := by rw [h1]; exact h2
    have hmono : StrictMono l := by
      intro i j hij
      fin_cases i <;> fin_cases j <;> first | exact absurd hij (by decide) | exact a01 | exact a12 | exact a01.trans a12
    exact hmono.injective
  have hli := eig_indep hC.1 (heig _ hC.1) hl.2 hinj
  obtain ⟨R₁, b₁, m₁, R₂, b₂, m₂, S, hs, k1, k2, hS, hSS, r1, e1, r2, e2⟩ :=
    (C57_solve_am eig heig _ hC l hl h1).2 hgap hli
  have hdet : ∀ {R : Mat3} {b m : V3}, IsRotation R → R * S = 1 + vecMulVec b m →
      0 < (1 + vecMulVec b m : Mat3).det := by
    intro R b m hR h
    rw [← h, det_mul, hR.2, one_mul]
    exact spd_det_pos hS
  refine ⟨some (R₁, b₁, m₁), some (R₂, b₂, m₂), by rw [extendAm, hs], ?_, ?_⟩
  · intro z hz
    simp only [List.mem_cons, List.not_mem_nil, or_false] at hz
    rcases hz with rfl | rfl
    · exact ⟨R₁, b₁, m₁, S, rfl, rankOne_habit hF k1 (hdet r1 e1), hS, hSS, r1, e1⟩
    · exact ⟨R₂, b₂, m₂, S, rfl, rankOne_habit hF k2 (hdet r2 e2), hS, hSS, r2, e2⟩
  · intro b m h
    obtain ⟨hbm, hpos⟩ := habit_rankOne hF h
    obtain ⟨b₁', m₁', b₂', m₂', hr, hcase⟩ := C68_all_solutions eig heig _ hC l hl hgap b m hbm hpos
    rw [solveAm_pairs hs] at hr
    simp only [Except.ok.injEq, AMRes.two.injEq, Prod.mk.injEq] at hr
    obtain ⟨⟨rfl, rfl⟩, rfl, rfl⟩ := hr
    rcases hcase with ⟨rfl, rfl⟩ | ⟨rfl, rfl⟩ | ⟨rfl, rfl⟩ | ⟨rfl, rfl⟩
    · exact ⟨_, by simp, R₁, .inl rfl⟩
    · exact ⟨some (R₁, b₁, m₁), by simp, R₁, .inr (by simp)⟩
    · exact ⟨some (R₂, b, m), by simp, R₂, .inl rfl⟩
    · exact ⟨some (R₂, b₂, m₂), by simp, R₂, .inr (by simp)⟩

/-! ### laminates -/

theorem laminate_det {U V Q : Mat3} {a n : V3} (hU : IsSPD U) (hrel : Related U V) (h : SolvesTwin U V Q a n)
    (f : ℝ) : (U + f • vecMulVec a n).det = U.det := by
  have hUd := (spd_det_pos hU).ne'
  have key : ∀ f : ℝ, (U + f • vecMulVec a n).det = U.det * (1 + f * (n ⬝ᵥ (U⁻¹ *ᵥ a))) := by
    intro f
    have : U + f • vecMulVec a n = U * (1 + vecMulVec (f • U⁻¹ *ᵥ a) n) := by
      rw [mul_add, Matrix.mul_one, mul_vecMulVec, mulVec_smul, mulVec_mulVec, mul_nonsing_inv _ hUd.isUnit,
        one_mulVec, smul_vecMulVec]
    rw [this, det_mul, det_one_add_dyad, dotProduct_smul, smul_eq_mul]
  have h1 := key 1
  have hQV : U + (1 : ℝ) • vecMulVec a n = Q * V := by rw [one_smul, ← h.equation]; abel
  rw [hQV, det_mul, h.rotation.2, one_mul, ← (related_facts hrel).1] at h1
  have h2 : n ⬝ᵥ (U⁻¹ *ᵥ a) = 0 := by
    have : U.det * (n ⬝ᵥ (U⁻¹ *ᵥ a)) = 0 := by linear_combination -h1
    exact (mul_eq_zero.1 this).resolve_left hUd
  rw [key f, h2]
  ring

theorem laminate_metric {U : Mat3} (hU : Uᵀ = U) (a n : V3) (f : ℝ) :
    (U + f • vecMulVec a n)ᵀ * (U + f • vecMulVec a n) = (U + f • vecMulVec n a) * (U + f • vecMulVec a n) := by
  rw [transpose_add, transpose_smul, transpose_vecMulVec, hU]

theorem laminate_trace {U : Mat3} (hU : Uᵀ = U) (a : V3) {n : V3} (hn : n ⬝ᵥ n = 1) (f : ℝ) :
    ((U + f • vecMulVec a n)ᵀ * (U + f • vecMulVec a n)).trace =
      (U * U).trace + 2 * f * (n ⬝ᵥ U *ᵥ a) + f * f * (a ⬝ᵥ a) := by
  have h := congrArg trace (mix_expand hU a n f)
  rw [← laminate_metric hU] at h
  simp only [trace_sub, trace_add, trace_smul, trace_vecMulVec, smul_eq_mul, hn] at h
  rw [dotProduct_comm (U *ᵥ a) n] at h
  linear_combination h

theorem charpoly_eval3 (A : Mat3) (x : ℝ) : A.charpoly.eval x =
    x ^ 3 - A.trace * x ^ 2 + (A.trace + A.det - 1 - (A - 1).det) * x - A.det := by
  rw [Matrix.eval_charpoly, trace_fin_three, det_fin_three, det_fin_three, det_fin_three]
  simp
  ring

/-- The laminates with the fractions `f` and `1 - f` have the same principal stretches. -/
theorem laminate_swap {U V Q : Mat3} {a n : V3} (hU : IsSPD U) (hV : IsSPD V) (hrel : Related U V)
    (h : SolvesTwin U V Q a n) (f : ℝ) {l : Fin 3 → ℝ}
    (hl : SortedEigenvalues ((U + f • vecMulVec a n)ᵀ * (U + f • vecMulVec a n)) l) :
    SortedEigenvalues ((U + (1 - f) • vecMulVec a n)ᵀ * (U + (1 - f) • vecMulVec a n)) l := by
  refine ⟨hl.1, ?_⟩
  have hl2 := hl.2
  unfold IsEigenvalues at hl2 ⊢
  rw [← hl2]
  have htr : ((U + (1 - f) • vecMulVec a n)ᵀ * (U + (1 - f) • vecMulVec a n)).trace =
      ((U + f • vecMulVec a n)ᵀ * (U + f • vecMulVec a n)).trace := by
    have h1 := laminate_trace hU.1 a h.unit 1
    have hQV : U + (1 : ℝ) • vecMulVec a n = Q * V := by rw [one_smul, ← h.equation]; abel
    have hVV : (Q * V)ᵀ * (Q * V) = V * V := by
      rw [transpose_mul, hV.1]
      calc V * Qᵀ * (Q * V) = V * (Qᵀ * Q) * V := by simp only [Matrix.mul_assoc]
        _ = _ := by rw [mul_eq_one_comm.1 h.rotation.1, Matrix.mul_one]
    rw [hQV, hVV, ← (related_facts hrel).2.1] at h1
    rw [laminate_trace hU.1 a h.unit, laminate_trace hU.1 a h.unit]
    linear_combination (2 * f - 1) * h1
  have hdet : ∀ f : ℝ, ((U + f • vecMulVec a n)ᵀ * (U + f • vecMulVec a n)).det = U.det * U.det := by
    intro f
    rw [det_mul, det_transpose, laminate_det hU hrel h]
  have hdet1 : ((U + (1 - f) • vecMulVec a n)ᵀ * (U + (1 - f) • vecMulVec a n) - 1).det =
      ((U + f • vecMulVec a n)ᵀ * (U + f • vecMulVec a n) - 1).det := by
    rw [laminate_metric hU.1, laminate_metric hU.1]
    change interfaceDet U a n (1 - f) = interfaceDet U a n f
    have he := interface_ends hU.1 hV.1 hrel h
    rw [interface_quadratic hU.1 a n (1 - f), interface_quadratic hU.1 a n f, he]
    ring
  apply Polynomial.funext
  intro x
  rw [charpoly_eval3, charpoly_eval3, htr, hdet, hdet, hdet1]

/-- **C70** when the fraction works: for a fraction making the determinant vanish, 1 is the middle eigenvalue,
so that habit planes exist, iff `tr C - det C - 2 ≥ 0` for the metric `C` of the laminate.  `habitplanes` does
not test this (`C70_middle_fails`). -/
theorem C70_middle (U : Mat3) (hU : Uᵀ = U) (a n : V3) (f : ℝ) (l : Fin 3 → ℝ)
    (hl : SortedEigenvalues ((U + f • vecMulVec a n)ᵀ * (U + f • vecMulVec a n)) l)
    (h : interfaceDet U a n f = 0) :
    l 1 = 1 ↔ 0 ≤ ((U + f • vecMulVec a n)ᵀ * (U + f • vecMulVec a n)).trace -
      ((U + f • vecMulVec a n)ᵀ * (U + f • vecMulVec a n)).det - 2 := by
  have h01 : l 0 ≤ l 1 := hl.1 (by decide)
  have h12 : l 1 ≤ l 2 := hl.1 (by decide)
  have hz := charpoly_three hl.2 1
  have e : ((1 : ℝ) • (1 : Mat3) - (U + f • vecMulVec a n)ᵀ * (U + f • vecMulVec a n)).det = 0 := by
    rw [laminate_metric hU, one_smul, ← neg_sub, det_neg]
    change _ * interfaceDet U a n f = 0
    rw [h, mul_zero]
  rw [e] at hz
  rw [trace_three hl.2, det_three hl.2]
  constructor
  · intro h1
    rw [h1] at h01 h12 ⊢
    nlinarith [mul_nonneg (sub_nonneg.2 h01) (sub_nonneg.2 h12)]
  · intro hp
    rcases mul_eq_zero.1 hz.symm with h | h
    · rcases mul_eq_zero.1 h with h | h
      · have h0 : l 0 = 1 := by linarith
        rw [h0] at hp h01
        have := mul_nonneg (sub_nonneg.2 h01) (sub_nonneg.2 (h01.trans h12))
        have h2 : (l 1 - 1) * (l 2 - 1) = 0 := by nlinarith
        rcases mul_eq_zero.1 h2 with h | h <;> linarith
      · linarith
    · have h0 : l 2 = 1 := by linarith
      rw [h0] at hp h12
      have := mul_nonneg (sub_nonneg.2 h12) (sub_nonneg.2 (h01.trans h12))
      have h2 : (1 - l 1) * (1 - l 0) = 0 := by nlinarith
      rcases mul_eq_zero.1 h2 with h | h <;> linarith

/-- The fraction makes habit planes possible: the principal stretches satisfy `l 0 < 1 = l 1 < l 2` (and the
extreme ones differ by at least 1e-24). -/
def GoodFraction (U : Mat3) (a n : V3) (f : ℝ) : Prop :=
  ∃ l, SortedEigenvalues ((U + f • vecMulVec a n)ᵀ * (U + f • vecMulVec a n)) l ∧ l 0 < 1 ∧ l 1 = 1 ∧ 1 < l 2 ∧
    1 / 10 ^ 24 ≤ l 2 - l 0

theorem habitStep_spec (eig : Mat3 → EigRes) (heig : ∀ A, Aᵀ = A → EigOK (eig A).vals (eig A).vecs A)
    {U V Q : Mat3} {a n : V3} (hU : IsSPD U) (hV : IsSPD V) (hrel : Related U V) (h : SolvesTwin U V Q a n)
    {f : ℝ} (hg : GoodFraction U a n f) :
    ∃ x₁ y₁ x₂ y₂, habitStep eig U (some (Q, a, n)) (some f) = .ok [x₁, y₁, x₂, y₂] ∧
      AllHabits (U + f • vecMulVec a n) x₁ y₁ ∧ AllHabits (U + (1 - f) • vecMulVec a n) x₂ y₂ := by
  obtain ⟨l, hl, h0, h1, h2, hgap⟩ := hg
  have hpos : ∀ f : ℝ, 0 < (U + f • vecMulVec a n).det := fun f => by
    rw [laminate_det hU hrel h]; exact spd_det_pos hU
  obtain ⟨x₁, y₁, e1, k1⟩ := am_habits eig heig (hpos f) hl h0 h1 h2 hgap
  obtain ⟨x₂, y₂, e2, k2⟩ := am_habits eig heig (hpos (1 - f)) (laminate_swap hU hV hrel h f hl) h0 h1 h2 hgap
  refine ⟨x₁, y₁, x₂, y₂, ?_, k1, k2⟩
  unfold habitStep mixMetric
  simp only [outer_eq, e1, e2]
  rfl

/-- **C70** (partial): if `twinparam()` returned two solutions of the twinning equation, `volumefrac()` two
fractions and both make habit planes possible, `habitplanes()` returns eight triples `(R, b, m)`: the first two
are exactly the habit planes of the laminate of the first twin with fraction `f` up to the common sign of `b` and
`m`, the next two those with fraction `1 - f`, and the rest likewise for the second twin.  In each, `R` is the rotation
with `R S = 1 + b ⊗ m` for the stretch `S` of the laminate.  Missing: the middle eigenvalue is not tested
(`C70_middle_fails`). -/
theorem C70_habitplanes_partial (eig : Mat3 → EigRes) (heig : ∀ A, Aᵀ = A → EigOK (eig A).vals (eig A).vecs A)
    (t : Tol) (rnd : ℝ → ℝ) (el : Bool) (p : TwinPair) (V Q₁ Q₂ : Mat3) (a₁ n₁ a₂ n₂ : V3) (f g : ℝ)
    (hU : IsSPD p.Ui) (hV : IsSPD V) (hrel : Related p.Ui V)
    (htp : p.twinParam eig t rnd el = .ok (some (some (Q₁, a₁, n₁), some (Q₂, a₂, n₂))))
    (h₁ : SolvesTwin p.Ui V Q₁ a₁ n₁) (h₂ : SolvesTwin p.Ui V Q₂ a₂ n₂)
    (hvf : p.volumeFrac eig t rnd el = .ok (some f, some g))
    (hf : GoodFraction p.Ui a₁ n₁ f) (hg : GoodFraction p.Ui a₂ n₂ g) (ty : TwinType) (hty : ty ≠ .other) :
    ∃ x₁ y₁ x₂ y₂ x₃ y₃ x₄ y₄,
      p.habitPlanes eig t rnd el ty = .ok [x₁, y₁, x₂, y₂, x₃, y₃, x₄, y₄] ∧
      AllHabits (p.Ui + f • vecMulVec a₁ n₁) x₁ y₁ ∧ AllHabits (p.Ui + (1 - f) • vecMulVec a₁ n₁) x₂ y₂ ∧
      AllHabits (p.Ui + g • vecMulVec a₂ n₂) x₃ y₃ ∧ AllHabits (p.Ui + (1 - g) • vecMulVec a₂ n₂) x₄ y₄ := by
  obtain ⟨x₁, y₁, x₂, y₂, s1, k1, k2⟩ := habitStep_spec eig heig hU hV hrel h₁ hf
  obtain ⟨x₃, y₃, x₄, y₄, s2, k3, k4⟩ := habitStep_spec eig heig hU hV hrel h₂ hg
  refine ⟨x₁, y₁, x₂, y₂, x₃, y₃, x₄, y₄, ?_, k1, k2, k3, k4⟩
  unfold TwinPair.habitPlanes TwinPair.isCompat
  cases ty
  case other => exact absurd rfl hty
  all_goals
    simp only [hvf, htp, s1, s2, Option.isSome_some, Bool.or_self]
    rfl

/-- If exactly one of the fractions is missing, `habitplanes()` raises `TypeError` although `iscompatible()` is
true. -/
theorem C70_one_fraction (eig : Mat3 → EigRes) (t : Tol) (rnd : ℝ → ℝ) (el : Bool) (p : TwinPair) (f : ℝ)
    (x : Option TwinSol) (y : TwinSol) (htp : p.twinParam eig t rnd el = .ok (some (x, some y)))
    (hvf : p.volumeFrac eig t rnd el = .ok (none, some f)) (ty : TwinType) (hty : ty ≠ .other) :
    p.isCompat eig t rnd el .C = .ok true ∧ p.habitPlanes eig t rnd el ty = .error .typeError := by
  have h1 : p.isCompat eig t rnd el .C = .ok true := by
    unfold TwinPair.isCompat; simp only [hvf]; rfl
  refine ⟨h1, ?_⟩
  unfold TwinPair.habitPlanes
  cases ty
  case other => exact absurd rfl hty
  all_goals
    simp only [h1, hvf, htp, habitStep]

end Verif.Props
