import Verif.Props.LatCorRuns
import Verif.Lemmas.QuarticRoots

/-!
# Property C79: the minimum of the quartic form that sets the search radius
-/

namespace Verif.Props

open Matrix Verif.Model Verif.Spec Verif.Lemmas

variable {ι : Type} [Fintype ι]

/-! ### With scipy -/

theorem quartMin_fold (T : ι → ι → ι → ι → ℝ) (mini : (ι → ℝ) → ι → ℝ) (starts : List (ι → ℝ)) (a : WithTop ℝ) :
    (starts.foldl (fun (fmin : WithTop ℝ) l0 => min fmin (quartForm T (mini l0) : ℝ)) a = a ∨
      ∃ l ∈ starts, starts.foldl (fun (fmin : WithTop ℝ) l0 => min fmin (quartForm T (mini l0) : ℝ)) a
        = (quartForm T (mini l) : ℝ)) ∧
    starts.foldl (fun (fmin : WithTop ℝ) l0 => min fmin (quartForm T (mini l0) : ℝ)) a ≤ a ∧
    ∀ l ∈ starts, starts.foldl (fun (fmin : WithTop ℝ) l0 => min fmin (quartForm T (mini l0) : ℝ)) a
      ≤ (quartForm T (mini l) : ℝ) := by
  induction starts generalizing a with
  | nil => simp
  | cons l0 ls ih =>
    obtain ⟨h1, h2, h3⟩ := ih (min a (quartForm T (mini l0) : ℝ))
    refine ⟨?_, h2.trans (min_le_left _ _), ?_⟩
    · rcases h1 with h1 | ⟨l, hl, h1⟩
      · rcases min_choice a (quartForm T (mini l0) : ℝ) with h | h
        · left
          rw [List.foldl_cons, h1, h]
        · right
          exact ⟨l0, by simp, by rw [List.foldl_cons, h1, h]⟩
      · right
        exact ⟨l, by simp [hl], h1⟩
    · intro l hl
      rcases List.mem_cons.mp hl with rfl | hl
      · exact h2.trans (min_le_right _ _)
      · exact h3 l hl

/-- C79, partial: the value returned is a value of the form on the sphere, so it is never below the minimum, and it
is the minimum exactly when one of the runs ends at a minimiser.  Missing: that one of them does. -/
theorem C79_slsqp_partial (T : ι → ι → ι → ι → ℝ) (m : ℝ) (hm : IsSphereMin T m) (mini : (ι → ℝ) → ι → ℝ)
    (starts : List (ι → ℝ)) (hs : starts ≠ []) (hu : ∀ l ∈ starts, IsUnitVec (mini l)) :
    ∃ v : ℝ, quartMin T mini starts = v ∧ m ≤ v ∧ (∀ l ∈ starts, v ≤ quartic T (mini l)) ∧
      (v = m ↔ ∃ l ∈ starts, quartic T (mini l) = m) := by
  obtain ⟨h1, -, h3⟩ := quartMin_fold T mini starts ⊤
  simp only [quartForm_quartic] at h1 h3
  have hq : quartMin T mini starts
      = starts.foldl (fun (fmin : WithTop ℝ) l0 => min fmin (quartic T (mini l0) : ℝ)) (⊤ : WithTop ℝ) := by
    unfold quartMin
    simp only [quartForm_quartic]
  rw [hq]
  obtain ⟨l1, hl1⟩ := List.exists_mem_of_ne_nil _ hs
  rcases h1 with h1 | ⟨l, hl, h1⟩
  · have := h3 l1 hl1
    rw [h1] at this
    exact absurd this (by simp)
  · refine ⟨_, h1, hm.2 _ (hu l hl), ?_, ?_⟩
    · intro l' hl'
      have := h3 l' hl'
      rw [h1] at this
      exact_mod_cast this
    · constructor
      · intro h
        exact ⟨l, hl, h⟩
      · rintro ⟨l', hl', h⟩
        have := h3 l' hl'
        rw [h1, h] at this
        exact le_antisymm (by exact_mod_cast this) (hm.2 _ (hu l hl))

/-- C79: too large a minimum makes the radius of the search smaller, never larger. -/
theorem C79_radius {m v d : ℝ} (hm : 0 < m) (h : m ≤ v) (hd : 0 ≤ d) : rmaxFn v d ≤ rmaxFn m d := by
  unfold rmaxFn
  refine Real.rpow_le_rpow (div_nonneg (gammaFn_pos hd).le (hm.le.trans h)) ?_ (by norm_num)
  exact div_le_div_of_nonneg_left (gammaFn_pos hd).le hm h

/-! ### Two equal orthonormal cells -/

/-- the vector with equal entries -/
noncomputable def evenVec : Fin 3 × Fin 3 → ℝ := fun _ => 1 / 3

theorem evenVec_unit : IsUnitVec evenVec := by
  unfold IsUnitVec evenVec
  rw [Fintype.sum_prod_type]
  norm_num

theorem evenVec_jac (p : Fin 3 × Fin 3) :
    quartJac (quartD (1 : Matrix (Fin 3) (Fin 3) ℝ) 1) evenVec p = 4 / 3 := by
  have := quartJac_cubic (Matrix.of fun _ _ => 1 / 3) p.1 p.2
  refine Eq.trans this ?_
  simp [Matrix.mul_apply, Fin.sum_univ_three]
  norm_num

theorem evenVec_value : quartic (quartD (1 : Matrix (Fin 3) (Fin 3) ℝ) 1) evenVec = 1 := by
  have h := quartJac_self (quartD (1 : Matrix (Fin 3) (Fin 3) ℝ) 1) evenVec
  simp only [evenVec_jac] at h
  rw [Fintype.sum_prod_type] at h
  simp [evenVec] at h
  norm_num at h
  exact h

theorem evenVec_critical : IsSphereCritical (quartD (1 : Matrix (Fin 3) (Fin 3) ℝ) 1) evenVec := by
  refine ⟨evenVec_unit, fun v hv => ?_⟩
  have := quartForm_deriv (quartD (1 : Matrix (Fin 3) (Fin 3) ℝ) 1) evenVec v
  simp only [quartForm_quartic] at this
  refine this.congr_deriv ?_
  simp only [evenVec_jac]
  rw [← Finset.mul_sum]
  simp only [evenVec] at hv
  rw [← Finset.mul_sum] at hv
  linarith

theorem cubic_min : IsSphereMin (quartD (1 : Matrix (Fin 3) (Fin 3) ℝ) 1) (1 / 3) := by
  constructor
  · set X : Matrix (Fin 3) (Fin 3) ℝ := (Real.sqrt 3 / 3) • 1 with hX
    have h3 : Real.sqrt 3 * Real.sqrt 3 = 3 := Real.mul_self_sqrt (by norm_num)
    refine ⟨fun p => X p.1 p.2, ?_, ?_⟩
    · unfold IsUnitVec
      rw [Fintype.sum_prod_type]
      simp [hX, Fin.sum_univ_three, Matrix.one_apply]
      nlinarith
    · rw [← quartForm_quartic, C31_tensor_real]
      simp [hX, Fin.sum_univ_three, Matrix.one_apply, Matrix.mul_apply]
      nlinarith
  · intro x hx
    rw [← quartForm_quartic]
    have e : quartForm (quartD (1 : Matrix (Fin 3) (Fin 3) ℝ) 1) x = _ :=
      quartForm_quartD 1 1 (Matrix.of fun i j => x (i, j))
    rw [e, one_mul, mul_one]
    have h1 := fro_mul_transpose (Matrix.of fun i j => x (i, j) : Matrix (Fin 3) (Fin 3) ℝ)
    have h2 : fro (Matrix.of fun i j => x (i, j) : Matrix (Fin 3) (Fin 3) ℝ) = 1 := by
      rw [← hx, Fintype.sum_prod_type]
      rfl
    rw [h2] at h1
    norm_num at h1
    linarith

/-- the hypotheses of `C79_slsqp_partial` -/
example : ∃ v : ℝ, quartMin (quartD (1 : Matrix (Fin 3) (Fin 3) ℝ) 1) (fun x => x) (List.replicate 100 evenVec) = v ∧
    1 / 3 ≤ v := by
  obtain ⟨v, h1, h2, -⟩ := C79_slsqp_partial _ _ cubic_min (fun x => x) (List.replicate 100 evenVec)
    (by simp) (fun l hl => by rw [List.eq_of_mem_replicate hl]; exact evenVec_unit)
  exact ⟨v, h1, h2⟩

/-- C79 fails for two equal orthonormal cells when the 100 random vectors are the vector with equal entries: it is a
critical point, where a method that follows the gradient stops.  The value returned is 1, three times the minimum,
and the radius then excludes the identity, which has distance zero. -/
theorem C79_saddle_fails :
    ∃ (mini : (Fin 3 × Fin 3 → ℝ) → Fin 3 × Fin 3 → ℝ) (starts : List (Fin 3 × Fin 3 → ℝ)),
      starts.length = 100 ∧
      (∀ l ∈ starts, IsUnitVec l ∧ (∀ i, 0 ≤ l i) ∧
        IsSphereCritical (quartD (1 : Matrix (Fin 3) (Fin 3) ℝ) 1) (mini l)) ∧
      quartMin (quartD (1 : Matrix (Fin 3) (Fin 3) ℝ) 1) mini starts = (1 : ℝ) ∧
      IsSphereMin (quartD (1 : Matrix (Fin 3) (Fin 3) ℝ) 1) (1 / 3) ∧
      cauchyDist (1 : Matrix (Fin 3) (Fin 3) ℤ) (1 : Matrix (Fin 3) (Fin 3) ℝ) 1 = 0 ∧
      rmaxFn 1 0 < frob (1 : Matrix (Fin 3) (Fin 3) ℤ) := by
  refine ⟨fun x => x, List.replicate 100 evenVec, by simp, ?_, ?_, cubic_min, ?_, ?_⟩
  · intro l hl
    rw [List.eq_of_mem_replicate hl]
    refine ⟨evenVec_unit, fun i => ?_, evenVec_critical⟩
    unfold evenVec
    norm_num
  · obtain ⟨h1, -, -⟩ := quartMin_fold (quartD (1 : Matrix (Fin 3) (Fin 3) ℝ) 1) (fun x => x)
      (List.replicate 100 evenVec) ⊤
    obtain ⟨v, hv, -⟩ := C79_slsqp_partial _ _ cubic_min (fun x => x) (List.replicate 100 evenVec)
      (by simp) (fun l hl => by rw [List.eq_of_mem_replicate hl]; exact evenVec_unit)
    rcases h1 with h1 | ⟨l, hl, h1⟩
    · exact absurd (hv.symm.trans h1) (by simp)
    · rw [List.eq_of_mem_replicate hl, quartForm_quartic, evenVec_value] at h1
      exact h1
  · rw [cauchyDist_eq]
    have : intMat ℝ (1 : Matrix (Fin 3) (Fin 3) ℤ) = 1 := by
      ext i j
      simp [intMat, Matrix.one_apply]
    simp [Cinv, Finv, this, fro]
  · have h1 := rmaxFn_pow (alpha := 1) (d := 0) one_pos le_rfl
    have h2 : frob (1 : Matrix (Fin 3) (Fin 3) ℤ) = Real.sqrt 3 := by
      rw [frob_eq]
      congr 1
      have : intMat ℝ (1 : Matrix (Fin 3) (Fin 3) ℤ) = 1 := by
        ext i j
        simp [intMat, Matrix.one_apply]
      rw [this, fro_one]
      norm_num
    rw [h2]
    refine lt_of_pow_lt_pow_left₀ 4 (Real.sqrt_nonneg _) ?_
    rw [h1, show (4 : ℕ) = 2 * 2 from rfl, pow_mul, Real.sq_sqrt (by norm_num)]
    simp [gammaFn]
    norm_num

/-! ### Without scipy -/

/-- C79: the equations solved without scipy hold exactly at the critical points of the form on the sphere, with the
multiplier twice the value. -/
theorem C79_equations (T : ι → ι → ι → ι → ℝ) (xs : ι ⊕ Unit → ℝ) :
    rootFunc T xs = 0 ↔
      IsSphereCritical T (fun i => xs (.inl i)) ∧ xs (.inr ()) = 2 * quartic T fun i => xs (.inl i) := by
  set x : ι → ℝ := fun i => xs (.inl i) with hx
  set lam := xs (.inr ()) with hl
  have hd : ∀ v : ι → ℝ, HasDerivAt (fun t : ℝ => quartic T fun i => x i + t * v i) (∑ i, quartJac T x i * v i) 0 := by
    intro v
    have := quartForm_deriv T x v
    simpa only [quartForm_quartic] using this
  have hE := quartJac_self T x
  constructor
  · intro h
    have h1 : ∀ i, quartJac T x i = 2 * lam * x i := by
      intro i
      have := congrFun h (.inl i)
      simp only [rootFunc, Sum.elim_inl, Pi.zero_apply] at this
      linarith
    have h2 : ∑ i, x i ^ 2 = 1 := by
      have := congrFun h (.inr ())
      simp only [rootFunc, Sum.elim_inr, Pi.zero_apply] at this
      simp only [pow_two]
      linarith
    refine ⟨⟨h2, fun v hv => (hd v).congr_deriv ?_⟩, ?_⟩
    · simp only [h1, mul_assoc]
      rw [← Finset.mul_sum, ← Finset.mul_sum, hv]
      ring
    · simp only [h1, mul_assoc] at hE
      rw [← Finset.mul_sum, ← Finset.mul_sum] at hE
      simp only [← pow_two, h2] at hE
      linarith
  · rintro ⟨⟨h2, h3⟩, h4⟩
    have h2' : ∑ i, x i * x i = 1 := by simpa only [IsUnitVec, pow_two] using h2
    have hv : ∀ i, quartJac T x i - 4 * quartic T x * x i = 0 := by
      have ht : ∑ i, x i * (quartJac T x i - 4 * quartic T x * x i) = 0 := by
        have : ∑ i, x i * (quartJac T x i - 4 * quartic T x * x i)
            = ∑ i, quartJac T x i * x i - 4 * quartic T x * ∑ i, x i * x i := by
          rw [Finset.mul_sum, ← Finset.sum_sub_distrib]
          exact Finset.sum_congr rfl fun i _ => by ring
        rw [this, hE, h2']
        ring
      have h5 := (hd _).unique (h3 _ ht)
      have h6 : ∑ i, (quartJac T x i - 4 * quartic T x * x i) ^ 2 = 0 := by
        have : ∑ i, (quartJac T x i - 4 * quartic T x * x i) ^ 2
            = ∑ i, quartJac T x i * (quartJac T x i - 4 * quartic T x * x i)
              - 4 * quartic T x * ∑ i, x i * (quartJac T x i - 4 * quartic T x * x i) := by
          rw [Finset.mul_sum, ← Finset.sum_sub_distrib]
          exact Finset.sum_congr rfl fun i _ => by ring
        rw [this, h5, ht]
        ring
      intro i
      have := (Finset.sum_eq_zero_iff_of_nonneg fun i _ => sq_nonneg _).mp h6 i (Finset.mem_univ i)
      exact pow_eq_zero_iff (two_ne_zero) |>.mp this
    ext k
    rcases k with i | u
    · simp only [rootFunc, Sum.elim_inl, Pi.zero_apply]
      have := hv i
      change quartJac T x i - 2 * lam * x i = 0
      rw [h4]
      linarith
    · simp only [rootFunc, Sum.elim_inr, Pi.zero_apply]
      change 1 - ∑ i, x i * x i = 0
      rw [h2']
      ring

/-- the equations have a solution -/
example : rootFunc (quartD (1 : Matrix (Fin 3) (Fin 3) ℝ) 1) (Sum.elim evenVec fun _ => 2) = 0 := by
  rw [C79_equations]
  refine ⟨evenVec_critical, ?_⟩
  have := evenVec_value
  simp only [Sum.elim_inl, Sum.elim_inr]
  rw [this]
  norm_num

variable [DecidableEq ι]

/-- C79: the derivative of the equations is the matrix the code inverts, less twice the multiplier on the diagonal of
the first block. -/
theorem C79_derivative (T : ι → ι → ι → ι → ℝ) (xs w : ι ⊕ Unit → ℝ) :
    (∀ i : ι, HasDerivAt (fun t : ℝ => rootFunc T (fun k => xs k + t * w k) (.inl i))
      ((rootJac T xs *ᵥ w) (.inl i) - 2 * xs (.inr ()) * w (.inl i)) 0) ∧
    HasDerivAt (fun t : ℝ => rootFunc T (fun k => xs k + t * w k) (.inr ())) ((rootJac T xs *ᵥ w) (.inr ())) 0 := by
  have hl : ∀ k, HasDerivAt (fun t : ℝ => xs k + t * w k) (w k) 0 := by
    intro k
    simpa using ((hasDerivAt_id (0 : ℝ)).mul_const (w k)).const_add (xs k)
  constructor
  · intro i
    have h1 := quartJac_deriv T (fun i => xs (.inl i)) (fun i => w (.inl i)) i
    have h2 := ((hl (.inr ())).const_mul 2).mul (hl (.inl i))
    refine (h1.sub h2).congr_deriv ?_
    simp [rootJac, Matrix.mulVec, dotProduct, Fintype.sum_sum_type]
    ring
  · have h1 := (HasDerivAt.fun_sum (u := Finset.univ) fun (i : ι) _ => (hl (.inl i)).mul (hl (.inl i))).const_sub 1
    refine h1.congr_deriv ?_
    simp only [rootJac, Matrix.mulVec, dotProduct, Fintype.sum_sum_type, Matrix.fromBlocks_apply₂₁,
      Matrix.fromBlocks_apply₂₂, Matrix.of_apply, Matrix.zero_apply, zero_mul, Finset.sum_const_zero, add_zero]
    rw [← Finset.sum_neg_distrib]
    exact Finset.sum_congr rfl fun i _ => by ring

/-- C79 fails: the matrix the code inverts is not the derivative of the equations, whatever the tensor, as soon as the
multiplier is not zero (the first one is 0.1). -/
theorem C79_jacobian_fails [Nonempty ι] (T : ι → ι → ι → ι → ℝ) (xs : ι ⊕ Unit → ℝ) (h : xs (.inr ()) ≠ 0) :
    ∃ (w : ι ⊕ Unit → ℝ) (k : ι ⊕ Unit),
      ¬ HasDerivAt (fun t : ℝ => rootFunc T (fun k => xs k + t * w k) k) ((rootJac T xs *ᵥ w) k) 0 := by
  obtain ⟨i⟩ := ‹Nonempty ι›
  refine ⟨Pi.single (.inl i) 1, .inl i, fun hd => ?_⟩
  have := hd.unique ((C79_derivative T xs (Pi.single (.inl i) 1)).1 i)
  simp only [Pi.single_eq_same, mul_one] at this
  exact h (by linarith)

theorem abs_le_norm2 {κ : Type} [Fintype κ] (f : κ → ℝ) (k : κ) : |f k| ≤ norm2 f := by
  unfold norm2
  refine Real.abs_le_sqrt ?_
  simp only [pow_two]
  exact Finset.single_le_sum (f := fun k => f k * f k) (fun i _ => mul_self_nonneg _) (Finset.mem_univ k)

/-- C79: at a point where the residual is below the tolerance of the code, the point is nearly of length one and the
value is nearly half the multiplier. -/
theorem C79_residual (T : ι → ι → ι → ι → ℝ) (xs : ι ⊕ Unit → ℝ) (e : ℝ) (h : norm2 (rootFunc T xs) ≤ e) :
    |1 - ∑ i, xs (.inl i) ^ 2| ≤ e ∧
    |4 * (quartic T fun i => xs (.inl i)) - 2 * xs (.inr ()) * ∑ i, xs (.inl i) ^ 2|
      ≤ e * Real.sqrt (∑ i, xs (.inl i) ^ 2) := by
  constructor
  · have := (abs_le_norm2 (rootFunc T xs) (.inr ())).trans h
    simpa only [rootFunc, Sum.elim_inr, ← pow_two] using this
  · have hE := quartJac_self T fun i => xs (.inl i)
    have e1 : 4 * (quartic T fun i => xs (.inl i)) - 2 * xs (.inr ()) * ∑ i, xs (.inl i) ^ 2
        = ∑ i, rootFunc T xs (.inl i) * xs (.inl i) := by
      rw [← hE, Finset.mul_sum, ← Finset.sum_sub_distrib]
      refine Finset.sum_congr rfl fun i _ => ?_
      simp only [rootFunc, Sum.elim_inl]
      ring
    rw [e1]
    have hcs := Finset.sum_mul_sq_le_sq_mul_sq Finset.univ (fun i => rootFunc T xs (.inl i)) fun i => xs (.inl i)
    have h1 : ∑ i, rootFunc T xs (.inl i) ^ 2 ≤ norm2 (rootFunc T xs) ^ 2 := by
      unfold norm2
      rw [Real.sq_sqrt (Finset.sum_nonneg fun i _ => mul_self_nonneg _), Fintype.sum_sum_type]
      simp only [pow_two]
      have : 0 ≤ ∑ k : Unit, rootFunc T xs (.inr k) * rootFunc T xs (.inr k) :=
        Finset.sum_nonneg fun i _ => mul_self_nonneg _
      linarith
    have h0 : 0 ≤ norm2 (rootFunc T xs) := Real.sqrt_nonneg _
    have hx : 0 ≤ ∑ i, xs (.inl i) ^ 2 := Finset.sum_nonneg fun i _ => sq_nonneg _
    refine abs_le_of_sq_le_sq ?_ (mul_nonneg (h0.trans h) (Real.sqrt_nonneg _))
    rw [mul_pow, Real.sq_sqrt hx]
    exact hcs.trans (mul_le_mul_of_nonneg_right (h1.trans (pow_le_pow_left₀ h0 h 2)) hx)

theorem quartMinNewton_ok (T : ι → ι → ι → ι → ℝ) (b : ℝ) (starts : List (ι → ℝ))
    (h : ∀ l ∈ starts, ∃ xs, quarticRoots T l = .ok xs ∧ b ≤ quartForm T fun i => xs (.inl i)) (a : WithTop ℝ)
    (ha : (b : WithTop ℝ) ≤ a) : ∃ v : WithTop ℝ, quartMinNewton T starts a = .ok v ∧ (b : WithTop ℝ) ≤ v ∧ v ≤ a ∧
      (starts ≠ [] → v ≠ ⊤) := by
  induction starts generalizing a with
  | nil => exact ⟨a, rfl, ha, le_rfl, fun h => absurd rfl h⟩
  | cons l ls ih =>
    obtain ⟨xs, h1, h2⟩ := h l (by simp)
    obtain ⟨v, h3, h4, h5, -⟩ := ih (fun l hl => h l (by simp [hl])) (min a (quartForm T fun i => xs (.inl i) : ℝ))
      (le_min ha (by exact_mod_cast h2))
    refine ⟨v, ?_, h4, h5.trans (min_le_left _ _), fun _ => ?_⟩
    · rw [quartMinNewton, h1]
      exact h3
    · exact ne_of_lt (lt_of_le_of_lt (h5.trans (min_le_right _ _)) (WithTop.coe_lt_top _))

/-- C79, partial: without scipy, if every run of the iteration ends with its residual below the tolerance, the value
returned is a number not below the minimum by more than a factor `(1 - 1e-4) ^ 2`.  Missing: that the runs end so, and
an upper bound. -/
theorem C79_newton_partial (T : ι → ι → ι → ι → ℝ) (m : ℝ) (hm : IsSphereMin T m) (h0 : 0 ≤ m)
    (starts : List (ι → ℝ)) (hs : starts ≠ [])
    (h : ∀ l ∈ starts, ∃ xs, quarticRoots T l = .ok xs ∧ norm2 (rootFunc T xs) ≤ 1 / 10 ^ 4) :
    ∃ v : ℝ, quartMinNewton T starts ⊤ = .ok (v : WithTop ℝ) ∧ m * (1 - 1 / 10 ^ 4) ^ 2 ≤ v := by
  obtain ⟨v, h1, h2, -, h3⟩ := quartMinNewton_ok T (m * (1 - 1 / 10 ^ 4) ^ 2) starts (by
    intro l hl
    obtain ⟨xs, h1, h2⟩ := h l hl
    refine ⟨xs, h1, ?_⟩
    rw [quartForm_quartic]
    have h3 := (abs_le.mp (C79_residual T xs _ h2).1).2
    set S := ∑ i, xs (.inl i) ^ 2 with hS
    have hSp : 0 < S := by
      norm_num at h3
      linarith
    have h4 : IsUnitVec fun i => (Real.sqrt S)⁻¹ * xs (.inl i) := by
      unfold IsUnitVec
      simp only [mul_pow]
      rw [← Finset.mul_sum, ← hS, inv_pow, Real.sq_sqrt hSp.le]
      exact inv_mul_cancel₀ hSp.ne'
    have h5 := hm.2 _ h4
    rw [← quartForm_quartic, quartForm_smul, quartForm_quartic] at h5
    have h6 : (Real.sqrt S)⁻¹ ^ 4 = (S ^ 2)⁻¹ := by
      rw [inv_pow, show (4 : ℕ) = 2 * 2 from rfl, pow_mul, Real.sq_sqrt hSp.le]
    rw [h6, inv_mul_eq_div, le_div_iff₀ (by positivity)] at h5
    refine le_trans ?_ h5
    refine mul_le_mul_of_nonneg_left ?_ h0
    exact pow_le_pow_left₀ (by norm_num) (by linarith) 2) ⊤ le_top
  obtain ⟨r, rfl⟩ := WithTop.ne_top_iff_exists.mp (h3 hs)
  exact ⟨r, h1, by exact_mod_cast h2⟩

/-- a run that meets the hypotheses: one variable, `x ^ 4 / 20` -/
example : ∃ v : ℝ, quartMinNewton (fun _ _ _ _ => 1 / 20 : Unit → Unit → Unit → Unit → ℝ) [fun _ => 1] ⊤
    = .ok (v : WithTop ℝ) ∧ 1 / 20 * (1 - 1 / 10 ^ 4) ^ 2 ≤ v := by
  have hq : ∀ x : Unit → ℝ, quartic (fun _ _ _ _ => 1 / 20 : Unit → Unit → Unit → Unit → ℝ) x = (x () ^ 2) ^ 2 / 20 := by
    intro x
    simp [quartic]
    ring
  have hf : rootFunc (fun _ _ _ _ => 1 / 20 : Unit → Unit → Unit → Unit → ℝ)
      (Sum.elim (fun _ => 1) fun _ => 0.1) = 0 := by
    rw [C79_equations]
    refine ⟨⟨by simp [IsUnitVec], fun v hv => ?_⟩, ?_⟩
    · have : v () = 0 := by simpa using hv
      simp only [hq, Sum.elim_inl, this, mul_zero]
      exact hasDerivAt_const _ _
    · rw [hq]
      norm_num
  refine C79_newton_partial _ _ ⟨⟨fun _ => 1, by simp [IsUnitVec], by rw [hq]; norm_num⟩, ?_⟩ (by norm_num) _ (by simp) ?_
  · intro x hx
    have : x () ^ 2 = 1 := by simpa [IsUnitVec] using hx
    rw [hq, this]
    norm_num
  · intro l hl
    rw [List.mem_singleton.mp hl]
    refine ⟨Sum.elim (fun _ => 1) fun _ => 0.1, ?_, ?_⟩
    · unfold quarticRoots
      rw [newtonLoop, if_neg]
      rw [hf]
      simp [norm2]
    · rw [hf]
      simp [norm2]

/-- C79 fails: without scipy the call raises `LinAlgError` for two equal orthonormal cells when a random vector is the
one with equal entries. -/
theorem C79_singular_fails (ls : List (Fin 3 × Fin 3 → ℝ)) (a : WithTop ℝ) :
    quartMinNewton (quartD (1 : Matrix (Fin 3) (Fin 3) ℝ) 1) (evenVec :: ls) a = .error .linAlgError := by
  have key : quarticRoots (quartD (1 : Matrix (Fin 3) (Fin 3) ℝ) 1) evenVec = .error .linAlgError := by
    unfold quarticRoots
    rw [newtonLoop, if_pos, if_pos]
    · rw [← Matrix.exists_mulVec_eq_zero_iff]
      set V : Matrix (Fin 3) (Fin 3) ℝ := !![1, -1, 0; -1, 1, 0; 0, 0, 0] with hV
      refine ⟨Sum.elim (fun p => V p.1 p.2) fun _ => 0, ?_, ?_⟩
      · intro h
        have := congrFun h (.inl (0, 0))
        simp [hV] at this
      · ext k
        rcases k with p | u
        · have h1 := quartJac_deriv (quartD (1 : Matrix (Fin 3) (Fin 3) ℝ) 1) evenVec (fun p => V p.1 p.2) p
          have h2 : ∀ t : ℝ, quartJac (quartD (1 : Matrix (Fin 3) (Fin 3) ℝ) 1)
              (fun k => evenVec k + t * V k.1 k.2) p
              = 4 * ((Matrix.of fun i j => 1 / 3 + t * V i j) * (Matrix.of fun i j => 1 / 3 + t * V i j)ᵀ *
                  (Matrix.of fun i j => 1 / 3 + t * V i j)) p.1 p.2 := by
            intro t
            exact quartJac_cubic (Matrix.of fun i j => 1 / 3 + t * V i j) p.1 p.2
          have h3 : ∀ t : ℝ, quartJac (quartD (1 : Matrix (Fin 3) (Fin 3) ℝ) 1)
              (fun k => evenVec k + t * V k.1 k.2) p = 4 / 3 + t ^ 3 * (16 * V p.1 p.2) := by
            intro t
            rw [h2]
            obtain ⟨i, j⟩ := p
            fin_cases i <;> fin_cases j <;>
              · simp [Matrix.mul_apply, Fin.sum_univ_three, hV]
                ring
          simp only [h3] at h1
          have h4 : HasDerivAt (fun t : ℝ => 4 / 3 + t ^ 3 * (16 * V p.1 p.2)) 0 0 := by
            have := (((hasDerivAt_id (0 : ℝ)).pow 3).mul_const (16 * V p.1 p.2)).const_add (4 / 3)
            refine this.congr_deriv ?_
            simp
          have h5 := h1.unique h4
          simp only [rootJac, Matrix.mulVec, dotProduct, Fintype.sum_sum_type, Matrix.fromBlocks_apply₁₁,
            Matrix.of_apply, Sum.elim_inl, Sum.elim_inr, mul_zero, Finset.sum_const_zero, add_zero, Pi.zero_apply]
          exact h5
        · simp [rootJac, Matrix.mulVec, dotProduct, Fintype.sum_sum_type, Fintype.sum_prod_type, Fin.sum_univ_three,
            evenVec, hV]
    · refine ⟨?_, by simp, ?_⟩
      · have h1 := abs_le_norm2 (rootFunc (quartD (1 : Matrix (Fin 3) (Fin 3) ℝ) 1)
          (Sum.elim evenVec fun _ => 0.1)) (.inl (0, 0))
        have h2 : rootFunc (quartD (1 : Matrix (Fin 3) (Fin 3) ℝ) 1)
          (Sum.elim evenVec fun _ => 0.1) (.inl (0, 0)) = 4 / 3 - 2 * 0.1 * (1 / 3) := by
          simp only [rootFunc, Sum.elim_inl, Sum.elim_inr]
          rw [show (fun i => evenVec i) = evenVec from rfl, evenVec_jac]
          rfl
        rw [h2] at h1
        refine lt_of_lt_of_le ?_ h1
        norm_num [abs_of_pos]
      · intro k
        rcases k with p | u
        · simp only [Sum.elim_inl, evenVec]
          norm_num
        · norm_num
  rw [quartMinNewton, key]

end Verif.Props
