import Mathlib.Algebra.Order.BigOperators.Ring.Finset
import Verif.Lemmas.LLL

/-!
# The reduction loop ends: the potential argument
-/

namespace Verif.Lemmas

open Matrix Verif.Model Verif.Spec

variable {n : ℕ}

/-- Expansion in an orthogonal base. -/
theorem orth_expand {O : Fin n → Fin n → ℝ} (ho : ∀ i j, i ≠ j → O i ⬝ᵥ O j = 0)
    (h0 : ∀ i, O i ⬝ᵥ O i ≠ 0) (x : Fin n → ℝ) :
    x = ∑ b, (x ⬝ᵥ O b / (O b ⬝ᵥ O b)) • O b := by
  set P : Matrix (Fin n) (Fin n) ℝ := Matrix.of O with hP
  set R : Matrix (Fin n) (Fin n) ℝ := Matrix.of fun a b => O b a / (O b ⬝ᵥ O b) with hR
  have h1 : P * R = 1 := by
    ext a b
    have e : (P * R) a b = (O a ⬝ᵥ O b) / (O b ⬝ᵥ O b) := by
      rw [Matrix.mul_apply, dotProduct, Finset.sum_div]
      exact Finset.sum_congr rfl fun k _ => by rw [hP, hR, of_apply, of_apply, mul_div_assoc]
    rw [e]
    by_cases h : a = b
    · subst h; rw [Matrix.one_apply_eq, div_self (h0 a)]
    · rw [Matrix.one_apply_ne h, ho a b h, zero_div]
  have h2 : R * P = 1 := mul_eq_one_comm.mp h1
  have h3 : x = (x ᵥ* R) ᵥ* P := by rw [Matrix.vecMul_vecMul, h2, Matrix.vecMul_one]
  conv_lhs => rw [h3]
  funext k
  simp only [Matrix.vecMul, dotProduct, Finset.sum_apply, Pi.smul_apply, smul_eq_mul]
  refine Finset.sum_congr rfl fun b _ => ?_
  rw [hP, of_apply]
  congr 1
  rw [Finset.sum_div]
  exact Finset.sum_congr rfl fun k _ => by rw [hR, of_apply, mul_div_assoc]; rfl

/-- Gram-Schmidt vectors recognised by their products with the columns. -/
theorem gs_of_products {C O : Fin n → Fin n → ℝ} (ho : ∀ i j, i ≠ j → O i ⬝ᵥ O j = 0)
    (h0 : ∀ i, O i ⬝ᵥ O i ≠ 0) (hd : ∀ i, C i ⬝ᵥ O i = O i ⬝ᵥ O i)
    (hu : ∀ i j, i < j → C i ⬝ᵥ O j = 0) :
    IsGramSchmidt C O (fun i j => C i ⬝ᵥ O j / (O j ⬝ᵥ O j)) where
  orth := ho
  diag i := by rw [hd, div_self (h0 i)]
  upper i j h := by rw [hu i j h, zero_div]
  fact i := orth_expand ho h0 (C i)

/-- The Gram-Schmidt vectors after a swap of the columns `i` and `j = i + 1`. -/
noncomputable def swapGs (O : Fin n → Fin n → ℝ) (M : Fin n → Fin n → ℝ) (i j : Fin n) : Fin n → Fin n → ℝ :=
  let p := O j + M j i • O i
  Function.update (Function.update O i p) j (O i - (M j i * (O i ⬝ᵥ O i) / (p ⬝ᵥ p)) • p)

theorem pp_eq {C O : Fin n → Fin n → ℝ} {M : Fin n → Fin n → ℝ} (h : IsGramSchmidt C O M) {i j : Fin n}
    (hne : i ≠ j) : (O j + M j i • O i) ⬝ᵥ (O j + M j i • O i) = O j ⬝ᵥ O j + M j i ^ 2 * (O i ⬝ᵥ O i) := by
  simp only [add_dotProduct, dotProduct_add, smul_dotProduct, dotProduct_smul, smul_eq_mul,
    h.orth i j hne, h.orth j i hne.symm]
  ring

theorem swapGs_spec {C O : Fin n → Fin n → ℝ} {M : Fin n → Fin n → ℝ} (h : IsGramSchmidt C O M)
    (h0 : ∀ i, O i ⬝ᵥ O i ≠ 0) {i j : Fin n} (hij : (j : ℕ) = i + 1) :
    ∃ M', IsGramSchmidt (C ∘ Equiv.swap i j) (swapGs O M i j) M' ∧
      (∀ k, swapGs O M i j k ⬝ᵥ swapGs O M i j k ≠ 0) ∧
      (∀ k, k ≠ i → k ≠ j → swapGs O M i j k = O k) ∧
      swapGs O M i j i ⬝ᵥ swapGs O M i j i = (O j + M j i • O i) ⬝ᵥ (O j + M j i • O i) ∧
      (swapGs O M i j i ⬝ᵥ swapGs O M i j i) * (swapGs O M i j j ⬝ᵥ swapGs O M i j j)
        = (O i ⬝ᵥ O i) * (O j ⬝ᵥ O j) := by
  have hne : i ≠ j := fun e => by rw [e] at hij; omega
  have hpos : ∀ k, 0 < O k ⬝ᵥ O k := fun k => lt_of_le_of_ne (dot_self_nonneg _) (h0 k).symm
  set p := O j + M j i • O i with hp
  have hpp : p ⬝ᵥ p = O j ⬝ᵥ O j + M j i ^ 2 * (O i ⬝ᵥ O i) := pp_eq h hne
  have hpp0 : 0 < p ⬝ᵥ p := by
    rw [hpp]
    have := mul_nonneg (sq_nonneg (M j i)) (hpos i).le
    linarith [hpos j]
  set t := M j i * (O i ⬝ᵥ O i) / (p ⬝ᵥ p) with ht
  have htp : t * (p ⬝ᵥ p) = M j i * (O i ⬝ᵥ O i) := div_mul_cancel₀ _ hpp0.ne'
  set q := O i - t • p with hq
  have oi : O i ⬝ᵥ p = M j i * (O i ⬝ᵥ O i) := by
    rw [hp, dotProduct_add, dotProduct_smul, smul_eq_mul, h.orth i j hne, zero_add]
  have hpq : p ⬝ᵥ q = 0 := by
    rw [hq, dotProduct_sub, dotProduct_smul, smul_eq_mul, dotProduct_comm, oi, htp, sub_self]
  have hqq : q ⬝ᵥ q = O i ⬝ᵥ O i - t * (M j i * (O i ⬝ᵥ O i)) := by
    rw [hq]
    simp only [sub_dotProduct, dotProduct_sub, smul_dotProduct, dotProduct_smul, smul_eq_mul]
    rw [dotProduct_comm p (O i), oi, htp]
    ring
  have hprod : (p ⬝ᵥ p) * (q ⬝ᵥ q) = (O i ⬝ᵥ O i) * (O j ⬝ᵥ O j) := by
    rw [hqq, mul_sub, ← mul_assoc, mul_comm (p ⬝ᵥ p) t, htp, hpp]
    ring
  have hqq0 : q ⬝ᵥ q ≠ 0 := by
    intro e
    rw [e, mul_zero] at hprod
    exact (mul_pos (hpos i) (hpos j)).ne hprod
  have ei : swapGs O M i j i = p := by
    simp only [swapGs]
    rw [Function.update_of_ne hne, Function.update_self]
  have ej : swapGs O M i j j = q := by
    simp only [swapGs]
    rw [Function.update_self]
  have ek : ∀ k, k ≠ i → k ≠ j → swapGs O M i j k = O k := by
    intro k h1 h2
    simp only [swapGs]
    rw [Function.update_of_ne h2, Function.update_of_ne h1]
  have okp : ∀ k, k ≠ i → k ≠ j → O k ⬝ᵥ p = 0 := by
    intro k h1 h2
    rw [hp, dotProduct_add, dotProduct_smul, h.orth k j h2, h.orth k i h1]; simp
  have okq : ∀ k, k ≠ i → k ≠ j → O k ⬝ᵥ q = 0 := by
    intro k h1 h2
    rw [hq, dotProduct_sub, dotProduct_smul, okp k h1 h2, h.orth k i h1]; simp
  have nz : ∀ k, swapGs O M i j k ⬝ᵥ swapGs O M i j k ≠ 0 := by
    intro k
    by_cases h1 : k = i
    · subst h1; rw [ei]; exact hpp0.ne'
    by_cases h2 : k = j
    · subst h2; rw [ej]; exact hqq0
    rw [ek k h1 h2]; exact h0 k
  have orth : ∀ a b, a ≠ b → swapGs O M i j a ⬝ᵥ swapGs O M i j b = 0 := by
    intro a b hab
    by_cases a1 : a = i
    · subst a1
      rw [ei]
      by_cases b2 : b = j
      · subst b2; rw [ej]; exact hpq
      · rw [ek b hab.symm b2, dotProduct_comm]; exact okp b hab.symm b2
    by_cases a2 : a = j
    · subst a2
      rw [ej]
      by_cases b1 : b = i
      · subst b1; rw [ei, dotProduct_comm]; exact hpq
      · rw [ek b b1 hab.symm, dotProduct_comm]; exact okq b b1 hab.symm
    rw [ek a a1 a2]
    by_cases b1 : b = i
    · subst b1; rw [ei]; exact okp a a1 a2
    by_cases b2 : b = j
    · subst b2; rw [ej]; exact okq a a1 a2
    rw [ek b b1 b2]; exact h.orth a b hab
  have cp : ∀ a, C a ⬝ᵥ p = M a j * (O j ⬝ᵥ O j) + M j i * (M a i * (O i ⬝ᵥ O i)) := by
    intro a
    rw [hp, dotProduct_add, dotProduct_smul, smul_eq_mul, gs_dot h, gs_dot h]
  have cq : ∀ a, C a ⬝ᵥ q = M a i * (O i ⬝ᵥ O i) - t * (C a ⬝ᵥ p) := by
    intro a
    rw [hq, dotProduct_sub, dotProduct_smul, smul_eq_mul, gs_dot h]
  have hlt : i < j := by rw [Fin.lt_def]; omega
  refine ⟨_, gs_of_products orth nz ?_ ?_, nz, ek, by rw [ei], by rw [ei, ej, hprod]⟩
  · intro a
    simp only [Function.comp_apply]
    by_cases a1 : a = i
    · subst a1
      rw [Equiv.swap_apply_left, ei, cp, h.diag, hpp]; ring
    by_cases a2 : a = j
    · subst a2
      rw [Equiv.swap_apply_right, ej, cq, cp, h.diag, h.upper i a hlt, hqq]; ring
    rw [Equiv.swap_apply_of_ne_of_ne a1 a2, ek a a1 a2, gs_dot h, h.diag, one_mul]
  · intro a b hab
    simp only [Function.comp_apply]
    by_cases b1 : b = i
    · subst b1
      have a1 : a ≠ b := hab.ne
      have a2 : a ≠ j := (hab.trans hlt).ne
      rw [Equiv.swap_apply_of_ne_of_ne a1 a2, ei, cp, h.upper a j (hab.trans hlt), h.upper a b hab]
      ring
    by_cases b2 : b = j
    · subst b2
      rw [ej]
      by_cases a1 : a = i
      · subst a1
        rw [Equiv.swap_apply_left, cq, cp, h.diag]
        have : t * (1 * (O b ⬝ᵥ O b) + M b a * (M b a * (O a ⬝ᵥ O a))) = M b a * (O a ⬝ᵥ O a) := by
          rw [show 1 * (O b ⬝ᵥ O b) + M b a * (M b a * (O a ⬝ᵥ O a)) = p ⬝ᵥ p by rw [hpp]; ring, htp]
        rw [this, sub_self]
      · have hai : a < i := by
          rw [Fin.lt_def] at hab ⊢
          have : (a : ℕ) ≠ i := fun e => a1 (Fin.ext e)
          omega
        rw [Equiv.swap_apply_of_ne_of_ne a1 hab.ne, cq, cp, h.upper a b hab, h.upper a i hai]
        ring
    rw [ek b b1 b2]
    by_cases a1 : a = i
    · subst a1
      rw [Equiv.swap_apply_left, gs_dot h, h.upper j b, zero_mul]
      rw [Fin.lt_def] at hab ⊢
      have : (b : ℕ) ≠ j := fun e => b2 (Fin.ext e)
      omega
    by_cases a2 : a = j
    · subst a2
      rw [Equiv.swap_apply_right, gs_dot h, h.upper i b (hlt.trans hab), zero_mul]
    rw [Equiv.swap_apply_of_ne_of_ne a1 a2, gs_dot h, h.upper a b hab, zero_mul]

/-! ### The potential -/

/-- The squared lengths of the Gram-Schmidt vectors. -/
noncomputable def nrm (C : Cols n) (k : Fin n) : ℝ := gsVec C k ⬝ᵥ gsVec C k

/-- The potential. -/
noncomputable def pot (C : Cols n) : ℝ := ∏ k, nrm C k ^ (n - 1 - (k : ℕ))

theorem nrm_pos {C : Cols n} (hC : (Matrix.of C).det ≠ 0) (k : Fin n) : 0 < nrm C k :=
  lt_of_le_of_ne (dot_self_nonneg _) (gs_ne_zero (gs_spec C) hC k).symm

theorem nrm_prod (C : Cols n) : ∏ k, nrm C k = (Matrix.of C).det ^ 2 := by
  have h := gs_spec C
  have e : (Matrix.of C).det = (Matrix.of (gsVec C)).det := by
    rw [gs_matrix h, Matrix.det_mul, gs_det_M h, one_mul]
  have hd : Matrix.of (gsVec C) * (Matrix.of (gsVec C))ᵀ = Matrix.diagonal (nrm C) := by
    ext a b
    rw [Matrix.mul_apply]
    change gsVec C a ⬝ᵥ gsVec C b = _
    by_cases hab : a = b
    · subst hab; rw [Matrix.diagonal_apply_eq]; rfl
    · rw [Matrix.diagonal_apply_ne _ hab, h.orth a b hab]
  have := congrArg Matrix.det hd
  rw [Matrix.det_mul, Matrix.det_transpose, Matrix.det_diagonal] at this
  rw [e, ← this, pow_two]

theorem nrm_le (C : Cols n) (k : Fin n) : nrm C k ≤ C k ⬝ᵥ C k := by
  have h := gs_spec C
  have e : C k ⬝ᵥ C k = ∑ j, gsCoef C k j ^ 2 * nrm C j := by
    conv_lhs => rw [h.fact k]
    rw [sum_dotProduct]
    refine Finset.sum_congr rfl fun j _ => ?_
    rw [smul_dotProduct, dotProduct_sum, Finset.sum_eq_single j]
    · rw [dotProduct_smul]
      simp only [smul_eq_mul, nrm]
      ring
    · intro b _ hb
      rw [dotProduct_smul, h.orth j b hb.symm, smul_zero]
    · simp
  rw [e]
  have := Finset.single_le_sum (f := fun j => gsCoef C k j ^ 2 * nrm C j)
    (fun j _ => mul_nonneg (sq_nonneg _) (dot_self_nonneg _)) (Finset.mem_univ k)
  simpa [h.diag] using this

theorem nrm_gauss {C : Cols n} (hC : (Matrix.of C).det ≠ 0) (k : Fin n) : nrm (gaussReduction C) k = nrm C k := by
  have h := gauss_gs (gs_spec C) (fun i j => roundEven (gsCoef C i j))
  have := (gs_unique h (gs_ne_zero (gs_spec C) hC)).1
  unfold nrm gaussReduction
  rw [this]

theorem nrm_swap {C : Cols n} (hC : (Matrix.of C).det ≠ 0) {i j : Fin n} (hij : (j : ℕ) = i + 1)
    (hs : needsSwap C i = true) :
    (∀ k, k ≠ i → k ≠ j → nrm (swapNext C i) k = nrm C k) ∧
    nrm (swapNext C i) i < 3 / 4 * nrm C i ∧ nrm C j ≤ nrm (swapNext C i) i ∧
    nrm (swapNext C i) i * nrm (swapNext C i) j = nrm C i * nrm C j := by
  have h := gs_spec C
  have h0 := gs_ne_zero h hC
  have hne : i ≠ j := fun e => by rw [e] at hij; omega
  obtain ⟨M', g1, g2, g3, g4, g5⟩ := swapGs_spec h h0 hij
  have hlt : (i : ℕ) + 1 < n := by rw [← hij]; exact j.2
  have hj : (⟨i + 1, hlt⟩ : Fin n) = j := Fin.ext hij.symm
  have e : swapNext C i = C ∘ Equiv.swap i j := by
    unfold swapNext
    rw [dif_pos hlt, hj]
  have hv := (gs_unique g1 g2).1
  have hn : ∀ k, nrm (swapNext C i) k
      = swapGs (gsVec C) (gsCoef C) i j k ⬝ᵥ swapGs (gsVec C) (gsCoef C) i j k := by
    intro k
    unfold nrm
    rw [e, hv]
  rw [needsSwap_iff h h0 i j hij] at hs
  refine ⟨fun k h1 h2 => by rw [hn, g3 k h1 h2]; rfl, ?_, ?_, by rw [hn, hn, g5]; rfl⟩
  · rw [hn, g4]
    change _ < 3 / 4 * (gsVec C i ⬝ᵥ gsVec C i)
    linarith
  · rw [hn, g4, pp_eq h hne]
    change gsVec C j ⬝ᵥ gsVec C j ≤ _
    have := mul_nonneg (sq_nonneg (gsCoef C j i)) (dot_self_nonneg (gsVec C i))
    linarith

theorem pot_split {C : Cols n} {i j : Fin n} (hij : (j : ℕ) = i + 1) :
    pot C = (∏ k ∈ (Finset.univ.erase i).erase j, nrm C k ^ (n - 1 - (k : ℕ))) *
      (nrm C i * (nrm C i * nrm C j) ^ (n - 1 - (j : ℕ))) := by
  have hne : i ≠ j := fun e => by rw [e] at hij; omega
  have hlt : (j : ℕ) < n := j.2
  unfold pot
  rw [← Finset.mul_prod_erase Finset.univ _ (Finset.mem_univ i),
    ← Finset.mul_prod_erase (Finset.univ.erase i) _ (Finset.mem_erase.mpr ⟨hne.symm, Finset.mem_univ j⟩)]
  rw [show n - 1 - (i : ℕ) = (n - 1 - (j : ℕ)) + 1 by omega, pow_succ, mul_pow]
  ring

theorem pot_swap {C : Cols n} (hC : (Matrix.of C).det ≠ 0) {i j : Fin n} (hij : (j : ℕ) = i + 1)
    (hs : needsSwap C i = true) : pot (swapNext C i) < 3 / 4 * pot C := by
  obtain ⟨h1, h2, -, h4⟩ := nrm_swap hC hij hs
  rw [pot_split hij, pot_split hij, h4]
  have hcon : ∏ k ∈ (Finset.univ.erase i).erase j, nrm (swapNext C i) k ^ (n - 1 - (k : ℕ))
      = ∏ k ∈ (Finset.univ.erase i).erase j, nrm C k ^ (n - 1 - (k : ℕ)) := by
    refine Finset.prod_congr rfl fun k hk => ?_
    rw [Finset.mem_erase, Finset.mem_erase] at hk
    rw [h1 k hk.2.1 hk.1]
  rw [hcon]
  have hP : 0 < ∏ k ∈ (Finset.univ.erase i).erase j, nrm C k ^ (n - 1 - (k : ℕ)) :=
    Finset.prod_pos fun k _ => pow_pos (nrm_pos hC k) _
  have hQ : 0 < (nrm C i * nrm C j) ^ (n - 1 - (j : ℕ)) :=
    pow_pos (mul_pos (nrm_pos hC i) (nrm_pos hC j)) _
  have : nrm (swapNext C i) i * (nrm C i * nrm C j) ^ (n - 1 - (j : ℕ))
      < 3 / 4 * nrm C i * (nrm C i * nrm C j) ^ (n - 1 - (j : ℕ)) := mul_lt_mul_of_pos_right h2 hQ
  have := mul_lt_mul_of_pos_left this hP
  linarith

/-- Bounds for the potential. -/
theorem pot_bounds {C : Cols n} (hC : (Matrix.of C).det ≠ 0) {A : ℝ} (hA : ∀ k, nrm C k ≤ A) :
    pot C ≤ A ^ (∑ k : Fin n, (n - 1 - (k : ℕ))) ∧
      ((Matrix.of C).det ^ 2) ^ (n - 1) ≤ pot C * A ^ (∑ k : Fin n, (k : ℕ)) := by
  constructor
  · unfold pot
    rw [← Finset.prod_pow_eq_pow_sum]
    exact Finset.prod_le_prod (fun k _ => (pow_pos (nrm_pos hC k) _).le)
      fun k _ => pow_le_pow_left₀ (nrm_pos hC k).le (hA k) _
  · have e : ((Matrix.of C).det ^ 2) ^ (n - 1) = pot C * ∏ k, nrm C k ^ (k : ℕ) := by
      rw [← nrm_prod, ← Finset.prod_pow, pot, ← Finset.prod_mul_distrib]
      refine Finset.prod_congr rfl fun k _ => ?_
      rw [← pow_add]
      congr 1
      have := k.2
      omega
    rw [e, ← Finset.prod_pow_eq_pow_sum]
    refine mul_le_mul_of_nonneg_left ?_ (Finset.prod_nonneg fun k _ => (pow_pos (nrm_pos hC k) _).le)
    exact Finset.prod_le_prod (fun k _ => (pow_pos (nrm_pos hC k) _).le)
      fun k _ => pow_le_pow_left₀ (nrm_pos hC k).le (hA k) _

theorem det_sq_same {C B : Cols n} (h : SameLattice C B) : (Matrix.of B).det ^ 2 = (Matrix.of C).det ^ 2 := by
  obtain ⟨A, hA, e⟩ := h
  rw [e, Matrix.det_mul, toR_det]
  rcases hA with h | h <;> rw [h] <;> push_cast <;> ring

/-- The loop ends before the potential falls below its lower bound. -/
theorem lllLoop_ends {A : ℝ} (hA0 : 0 < A) : ∀ (f : ℕ) (B : Cols n) (c : ℕ), (Matrix.of B).det ≠ 0 →
    (∀ k, nrm B k ≤ A) →
    pot B * (3 / 4) ^ f * A ^ (∑ k : Fin n, (k : ℕ)) < ((Matrix.of B).det ^ 2) ^ (n - 1) →
    (lllLoop f B c).2.2 = false ∧ c < (lllLoop f B c).2.1 ∧ (lllLoop f B c).2.1 ≤ c + f := by
  intro f
  induction f with
  | zero =>
    intro B c hB hN hlt
    rw [pow_zero, mul_one] at hlt
    exact absurd (pot_bounds hB hN).2 (not_le.mpr hlt)
  | succ f ih =>
    intro B c hB hN hlt
    have hg : SameLattice B (gaussReduction B) := gaussOps_same _ B
    have hdG : (Matrix.of (gaussReduction B)).det ≠ 0 := hg.det_ne hB
    have hnG := nrm_gauss hB
    have hpG : pot (gaussReduction B) = pot B := by
      unfold pot; simp only [hnG]
    cases hs : swapping (gaussReduction B) with
    | none => simp only [lllLoop, hs]; refine ⟨trivial, by omega, by omega⟩
    | some i =>
      simp only [lllLoop, hs]
      have hi : needsSwap (gaussReduction B) i = true := by
        unfold swapping at hs
        exact List.find?_some hs
      have hlt' : (i : ℕ) + 1 < n := by
        by_contra h
        rw [needsSwap, dif_neg h] at hi
        exact absurd hi (by decide)
      obtain ⟨h1, h2, h3, h4⟩ := nrm_swap hdG (j := ⟨i + 1, hlt'⟩) rfl hi
      have hpot := pot_swap hdG (j := ⟨i + 1, hlt'⟩) rfl hi
      have hsw := swapNext_same (gaussReduction B) i
      have hd' := hsw.det_ne hdG
      have hle : ∀ k, nrm (swapNext (gaussReduction B) i) k ≤ A := by
        intro k
        have hni := nrm_pos hdG i
        by_cases k1 : k = i
        · subst k1
          have := hN k
          rw [← hnG k] at this
          linarith
        by_cases k2 : k = ⟨i + 1, hlt'⟩
        · rw [k2]
          have hp' := nrm_pos hd' i
          have hNi := hN i
          rw [← hnG i] at hNi
          refine le_trans ?_ hNi
          by_contra hcon
          push Not at hcon
          have : nrm (gaussReduction B) i * nrm (gaussReduction B) ⟨i + 1, hlt'⟩
              < nrm (swapNext (gaussReduction B) i) i * nrm (swapNext (gaussReduction B) i) ⟨i + 1, hlt'⟩ := by
            calc nrm (gaussReduction B) i * nrm (gaussReduction B) ⟨i + 1, hlt'⟩
                ≤ nrm (gaussReduction B) i * nrm (swapNext (gaussReduction B) i) i :=
                  mul_le_mul_of_nonneg_left h3 hni.le
              _ < nrm (swapNext (gaussReduction B) i) ⟨i + 1, hlt'⟩ * nrm (swapNext (gaussReduction B) i) i :=
                  mul_lt_mul_of_pos_right hcon hp'
              _ = _ := mul_comm _ _
          rw [h4] at this
          exact lt_irrefl _ this
        rw [h1 k k1 k2, hnG]; exact hN k
      have hdet : (Matrix.of (swapNext (gaussReduction B) i)).det ^ 2 = (Matrix.of B).det ^ 2 := by
        rw [det_sq_same hsw, det_sq_same hg]
      have key : pot (swapNext (gaussReduction B) i) * (3 / 4) ^ f * A ^ (∑ k : Fin n, (k : ℕ))
          < ((Matrix.of (swapNext (gaussReduction B) i)).det ^ 2) ^ (n - 1) := by
        rw [hdet]
        refine lt_of_le_of_lt ?_ hlt
        rw [hpG] at hpot
        have hA' : 0 < A ^ (∑ k : Fin n, (k : ℕ)) := pow_pos hA0 _
        have h34 : (0 : ℝ) < (3 / 4) ^ f := by positivity
        rw [pow_succ]
        have := mul_le_mul_of_nonneg_right hpot.le (mul_pos h34 hA').le
        linarith
      obtain ⟨a1, a2, a3⟩ := ih _ (c + 1) hd' hle key
      exact ⟨a1, by omega, by omega⟩

/-- More steps than needed change nothing. -/
theorem lllLoop_more (g : ℕ) : ∀ (f : ℕ) (B : Cols n) (c : ℕ), (lllLoop f B c).2.2 = false →
    lllLoop (f + g) B c = lllLoop f B c := by
  intro f
  induction f with
  | zero => intro B c h; simp [lllLoop] at h
  | succ f ih =>
    intro B c h
    rw [show f + 1 + g = (f + g) + 1 by ring]
    cases hs : swapping (gaussReduction B) with
    | none => simp only [lllLoop, hs]
    | some i =>
      simp only [lllLoop, hs] at h ⊢
      exact ih _ _ h

theorem sum_weights (n : ℕ) : (∑ k : Fin n, (n - 1 - (k : ℕ))) + ∑ k : Fin n, (k : ℕ) = n * (n - 1) := by
  rw [← Finset.sum_add_distrib, Finset.sum_congr rfl (g := fun _ => n - 1)]
  · simp
  · intro k _
    have := k.2
    omega

/-- The bound in terms of the columns. -/
theorem lllLoop_bound {C : Cols n} (hC : (Matrix.of C).det ≠ 0) {A : ℝ} (hA : ∀ k, C k ⬝ᵥ C k ≤ A) (hA0 : 0 < A)
    {m : ℕ} (hm : (A ^ n) ^ (n - 1) < ((Matrix.of C).det ^ 2) ^ (n - 1) * (4 / 3) ^ m) (g c : ℕ) :
    (lllLoop (m + g) C c).2.2 = false ∧ c < (lllLoop (m + g) C c).2.1 ∧ (lllLoop (m + g) C c).2.1 ≤ c + m := by
  have hN : ∀ k, nrm C k ≤ A := fun k => (nrm_le C k).trans (hA k)
  have key : pot C * (3 / 4) ^ m * A ^ (∑ k : Fin n, (k : ℕ)) < ((Matrix.of C).det ^ 2) ^ (n - 1) := by
    have h1 := (pot_bounds hC hN).1
    have hA' : 0 < A ^ (∑ k : Fin n, (k : ℕ)) := pow_pos hA0 _
    have h34 : (0 : ℝ) < (3 / 4) ^ m := by positivity
    calc pot C * (3 / 4) ^ m * A ^ (∑ k : Fin n, (k : ℕ))
        ≤ A ^ (∑ k : Fin n, (n - 1 - (k : ℕ))) * (3 / 4) ^ m * A ^ (∑ k : Fin n, (k : ℕ)) := by gcongr
      _ = (A ^ n) ^ (n - 1) * (3 / 4) ^ m := by
          rw [← pow_mul, ← sum_weights, pow_add]; ring
      _ < ((Matrix.of C).det ^ 2) ^ (n - 1) * (4 / 3) ^ m * (3 / 4) ^ m := mul_lt_mul_of_pos_right hm h34
      _ = ((Matrix.of C).det ^ 2) ^ (n - 1) := by
          rw [mul_assoc, ← mul_pow]; norm_num
  obtain ⟨a1, a2, a3⟩ := lllLoop_ends hA0 m C c hC hN key
  rw [lllLoop_more g m C c a1]
  exact ⟨a1, a2, a3⟩

end Verif.Lemmas
